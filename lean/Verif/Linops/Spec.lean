import Verif.Linops.Model

/-!
# What an operator denotes, which operators are well formed, and outcomes of calls

`den` gives every operator the matrix its class documents.  `Valid` says that a tree is one the library can hold: the
stored shapes fit together, the flags are true statements about the matrix, and no flag of a component was assigned
after the operator was built from it (`derived ⊑ fl`).  `Meets r P`: the call returns a value with `P`, unless the
recursion limit was too small.
-/

namespace Probnum.Linops

open Finset

mutual

/-- The matrix an operator denotes. -/
noncomputable def den : Op → Mat
  | .matrix _ A => A
  | .lam _ A => A
  | .identity _ => eye
  | .scaling _ _ f => fun i j => if i = j then f i else 0
  | .zero _ => 0
  | .kron _ A B => kronM B.rows B.cols (den A) (den B)
  | .idkron _ _ B => kronM B.rows B.cols eye (den B)
  | .symkron _ _ A B =>
    (1 / 2 : ℝ) • (kronM B.rows B.cols (den A) (den B) + kronM A.rows A.cols (den B) (den A))
  | .symmetrize _ n => fun i j =>
    ((if i = j then 1 else 0) + (if i / n = j % n ∧ i % n = j / n then 1 else 0)) / 2
  | .scaled _ _ s A => s • den A
  | .sum _ l => denSum l
  | .prod _ l => denProd l
  | .transposed _ A => trn (den A)
  | .inverse h A => invM h.rows (den A)
  | .selection _ idx => fun i j => if idx.getD i 0 = j then 1 else 0
  | .embedding _ take put _ => fun i j =>
    ∑ p ∈ range put.length, if put.getD p 0 = i ∧ take.getD p 0 = j then 1 else 0
  | .block _ l => denBlock l

/-- Sum of the denoted matrices. -/
noncomputable def denSum : List Op → Mat
  | [] => 0
  | a :: l => den a + denSum l

/-- Product of the denoted matrices. -/
noncomputable def denProd : List Op → Mat
  | [] => eye
  | a :: l => mmul a.cols (den a) (denProd l)

/-- Block-diagonal matrix of the denoted matrices. -/
noncomputable def denBlock : List Op → Mat
  | [] => 0
  | a :: l => fun i j =>
    if i < a.rows then (if j < a.cols then den a i j else 0)
    else (if j < a.cols then 0 else denBlock l (i - a.rows) (j - a.cols))

end

/-! ## Properties of matrices that the flags claim -/

def IsSym (r c : ℕ) (M : Mat) : Prop := r = c ∧ Eqv r r (trn M) M
def IsLow (r c : ℕ) (M : Mat) : Prop := ∀ i < r, ∀ j < c, i < j → M i j = 0
def IsUp (r c : ℕ) (M : Mat) : Prop := ∀ i < r, ∀ j < c, j < i → M i j = 0
def IsPd (r c : ℕ) (M : Mat) : Prop := r = c ∧ (toM r r M).PosDef

/-- A flag value is right: `True` is claimed only if the property holds and, if `full`, `False` only if it does not. -/
def FlagOk (full : Prop) (v : Option Bool) (P : Prop) : Prop :=
  (v = some true → P) ∧ (full → v = some false → ¬ P)

/-- All four flags are right for the `r × c` matrix `M`. -/
structure Sound (full : Prop) (r c : ℕ) (fl : Flags) (M : Mat) : Prop where
  sym : FlagOk full fl.sym (IsSym r c M)
  low : FlagOk full fl.low (IsLow r c M)
  up : FlagOk full fl.up (IsUp r c M)
  pd : FlagOk full fl.pd (IsPd r c M)

/-- Every flag that is set in `d` has the same value in `f`. -/
structure Flags.Le (d f : Flags) : Prop where
  sym : d.sym = none ∨ d.sym = f.sym
  low : d.low = none ∨ d.low = f.low
  up : d.up = none ∨ d.up = f.up
  pd : d.pd = none ∨ d.pd = f.pd

/-- Flags of the transpose. -/
def Flags.swap (f : Flags) : Flags := ⟨f.sym, f.up, f.low, f.pd⟩

/-- The flags the library gives an operator when it is built from its present components. -/
noncomputable def derived : Op → Flags
  | .identity _ => ⟨some true, some true, some true, some true⟩
  | .scaling _ iso f => ⟨some true, some true, some true, if iso then some (decide (0 < f 0)) else none⟩
  | .zero h => (mkZero h.rows h.cols).fl
  | .kron h A B =>
    { (base h.rows h.cols).fl with
      sym := if A.fl.sym = some true ∧ B.fl.sym = some true then some true else (base h.rows h.cols).fl.sym }
  | .idkron h _ B =>
    { (base h.rows h.cols).fl with
      sym := if B.fl.sym = some true then some true else (base h.rows h.cols).fl.sym }
  | .symkron h _ A B =>
    { (base h.rows h.cols).fl with
      sym := if A.fl.sym = some true ∧ B.fl.sym = some true then some true else (base h.rows h.cols).fl.sym }
  | .scaled _ _ s A =>
    ⟨A.fl.sym, A.fl.low, A.fl.up, if A.fl.pd = some true then some (decide (0 < s)) else none⟩
  | .sum h l =>
    ⟨if ∀ b ∈ l, b.fl.sym = some true then some true else (base h.rows h.cols).fl.sym,
      if ∀ b ∈ l, b.fl.low = some true then some true else none,
      if ∀ b ∈ l, b.fl.up = some true then some true else none,
      if ∀ b ∈ l, b.fl.pd = some true then some true else none⟩
  | .transposed _ A => A.fl.swap
  | .inverse _ A => ⟨A.fl.sym, none, none, A.fl.pd⟩
  | .block _ l =>
    ⟨inferProp (fun b => b.fl.sym) l, inferProp (fun b => b.fl.low) l, inferProp (fun b => b.fl.up) l,
      inferProp (fun b => b.fl.pd) l⟩
  | op => (base op.rows op.cols).fl

/-- A `Zero`, perhaps scaled or transposed. -/
def zeroLike : Op → Prop
  | .zero _ => True
  | .scaled _ _ _ A => zeroLike A
  | .transposed _ A => zeroLike A
  | _ => False

/-- The conditions on a single node.  `zpd`: nobody assigned `is_positive_definite` of a non-square `Zero`. -/
structure Node (full : Prop) (op : Op) : Prop where
  rows : 0 < op.rows
  cols : 0 < op.cols
  nonsquare : op.rows ≠ op.cols → op.fl.sym = some false
  pdsym : op.fl.pd = some true → op.fl.sym = some true
  balanced : op.fl.sym = some true → op.fl.low = op.fl.up
  settled : (derived op).Le op.fl
  sound : Sound full op.rows op.cols op.fl (den op)
  zpd : zeroLike op → op.rows ≠ op.cols → op.fl.pd = none

/-- Operators that `inv` wraps in an `_InverseLinearOperator`. -/
def InvBase : Op → Prop
  | .matrix _ _ => True
  | .lam _ _ => True
  | .zero _ => True
  | .symmetrize _ _ => True
  | .sum _ _ => True
  | .selection _ _ => True
  | .embedding _ _ _ _ => True
  | .symkron _ same _ _ => same = false
  | _ => False

/-- Well-formed operators.  With `full` the claims `False` of the flags are right, too; this excludes the two
situations in which the library claims `False` wrongly (a scalar multiple by zero, non-square diagonal blocks). -/
inductive Valid (full : Prop) : Op → Prop
  | matrix {h : Hdr} {A : Mat} : Node full (.matrix h A) → Valid full (.matrix h A)
  | lam {h : Hdr} {A : Mat} : Node full (.lam h A) → Valid full (.lam h A)
  | identity {h : Hdr} : h.rows = h.cols → Node full (.identity h) → Valid full (.identity h)
  | scaling {h : Hdr} {iso : Bool} {f : ℕ → ℝ} : h.rows = h.cols → (iso = true → ∀ i, f i = f 0) →
      Node full (.scaling h iso f) → Valid full (.scaling h iso f)
  | zero {h : Hdr} : Node full (.zero h) → Valid full (.zero h)
  | kron {h : Hdr} {A B : Op} : Valid full A → Valid full B → h.rows = A.rows * B.rows → h.cols = A.cols * B.cols →
      Node full (.kron h A B) → Valid full (.kron h A B)
  | idkron {h : Hdr} {k : ℕ} {B : Op} : Valid full B → h.rows = k * B.rows → h.cols = k * B.cols →
      Node full (.idkron h k B) → Valid full (.idkron h k B)
  | symkron {h : Hdr} {same : Bool} {A B : Op} : Valid full A → Valid full B → (same = true → B = A) →
      A.rows = A.cols → B.rows = A.rows → B.cols = A.cols → h.rows = A.rows * A.rows → h.cols = A.rows * A.rows →
      Node full (.symkron h same A B) → Valid full (.symkron h same A B)
  | symmetrize {h : Hdr} {n : ℕ} : h.rows = n * n → h.cols = n * n → Node full (.symmetrize h n) →
      Valid full (.symmetrize h n)
  | scaled {h : Hdr} {neg : Bool} {s : ℝ} {A : Op} : Valid full A → h.rows = A.rows → h.cols = A.cols →
      (full → s ≠ 0) → (neg = true → s = -1) → Node full (.scaled h neg s A) → Valid full (.scaled h neg s A)
  | sum {h : Hdr} {l : List Op} : l ≠ [] → (∀ a ∈ l, Valid full a) → (∀ a ∈ l, a.rows = h.rows ∧ a.cols = h.cols) →
      Node full (.sum h l) → Valid full (.sum h l)
  | prod {h : Hdr} {a : Op} {l : List Op} : (∀ b ∈ a :: l, Valid full b) → chained (a :: l) → h.rows = a.rows →
      h.cols = lastCols a.cols l → Node full (.prod h (a :: l)) → Valid full (.prod h (a :: l))
  | transposed {h : Hdr} {A : Op} : Valid full A → h.rows = A.cols → h.cols = A.rows →
      Node full (.transposed h A) → Valid full (.transposed h A)
  | inverse {h : Hdr} {A : Op} : Valid full A → A.rows = A.cols → h.rows = A.rows → h.cols = A.rows → InvBase A →
      detM A.rows (den A) ≠ 0 → Node full (.inverse h A) → Valid full (.inverse h A)
  | selection {h : Hdr} {idx : List ℕ} : idx.length = h.rows → h.rows ≤ h.cols → (∀ i ∈ idx, i < h.cols) →
      idx.Nodup → Node full (.selection h idx) → Valid full (.selection h idx)
  | embedding {h : Hdr} {put : List ℕ} : put.length = h.cols → h.cols ≤ h.rows → (∀ i ∈ put, i < h.rows) →
      put.Nodup → Node full (.embedding h (List.range h.cols) put 0) →
      Valid full (.embedding h (List.range h.cols) put 0)
  | block {h : Hdr} {l : List Op} : l ≠ [] → (∀ a ∈ l, Valid full a) → (full → ∀ a ∈ l, a.rows = a.cols) →
      h.rows = (l.map Op.rows).sum → h.cols = (l.map Op.cols).sum → Node full (.block h l) → Valid full (.block h l)

theorem Valid.node {full : Prop} {op : Op} (h : Valid full op) : Node full op := by
  cases h <;> assumption

/-! ## Outcomes -/

/-- The call returns a value satisfying `P`, or the recursion limit was exceeded. -/
def Meets {α : Type _} (r : Res α) (P : α → Prop) : Prop :=
  match r with
  | .ok a => P a
  | .error e => e = .recursionError

theorem Meets.ok {α : Type _} {a : α} {P : α → Prop} (h : P a) : Meets (.ok a) P := h

theorem Meets.fuel {α : Type _} {P : α → Prop} : Meets (.error .recursionError : Res α) P := rfl

theorem Meets.mono {α : Type _} {r : Res α} {P Q : α → Prop} (h : Meets r P) (hPQ : ∀ a, P a → Q a) : Meets r Q := by
  cases r with
  | ok a => exact hPQ a h
  | error e => exact h

theorem Meets.bind {α γ : Type _} {r : Res α} {f : α → Res γ} {P : α → Prop} {Q : γ → Prop} (h : Meets r P)
    (hf : ∀ a, P a → Meets (f a) Q) : Meets (r >>= f) Q := by
  cases r with
  | ok a => exact hf a h
  | error e => exact h

theorem Meets.mapM {α γ : Type} {f : α → Res γ} {P : α → γ → Prop} :
    ∀ {l : List α}, (∀ a ∈ l, Meets (f a) (P a)) → Meets (l.mapM f) (fun ys => List.Forall₂ P l ys)
  | [], _ => by
    rw [List.mapM_nil]
    exact List.Forall₂.nil
  | a :: l, h => by
    rw [List.mapM_cons]
    refine Meets.bind (h a (by simp)) fun b hb => ?_
    refine Meets.bind (Meets.mapM fun c hc => h c (List.mem_cons_of_mem _ hc)) fun bs hbs => ?_
    exact List.Forall₂.cons hb hbs

end Probnum.Linops
