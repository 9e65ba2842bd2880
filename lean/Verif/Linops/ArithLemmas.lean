import Verif.Linops.Arith
import Verif.Linops.Apply

/-! # Sums, differences, negatives and products of operators denote the right matrices (lemmas) -/

namespace Probnum.Linops

open Finset

/-- `t` is a well-formed operator of shape `(r, c)` that denotes `M`. -/
structure Post (full : Prop) (r c : ℕ) (M : Mat) (t : Op) : Prop where
  valid : Valid full t
  rows : t.rows = r
  cols : t.cols = c
  den : Eqv r c (den t) M

theorem Post.congr {full : Prop} {r c : ℕ} {M N : Mat} {t : Op} (h : Post full r c M t) (e : Eqv r c M N) :
    Post full r c N t := ⟨h.valid, h.rows, h.cols, h.den.trans e⟩

theorem MulPost.post {full : Prop} {s : ℝ} {A t : Op} (h : MulPost full s A t) :
    Post full A.rows A.cols (s • Linops.den A) t := ⟨h.valid, h.rows, h.cols, h.den⟩

/-! ## The registries -/

theorem lookup_mem {R : Type} {reg : List ((Kind × Kind) × R)} {key : Kind × Kind} {r : R}
    (h : lookup reg key = some r) : (key, r) ∈ reg := by
  unfold lookup at h
  cases he : reg.reverse.find? fun e => e.1 = key with
  | none => rw [he] at h; cases h
  | some e =>
    rw [he] at h
    have h1 := List.find?_some he
    have h2 := List.mem_of_find?_eq_some he
    simp only [Option.map_some, Option.some.injEq] at h
    simp only [decide_eq_true_eq] at h1
    rw [List.mem_reverse] at h2
    rw [← h1, ← h]
    exact h2

/-- The classes a function registered for sums expects. -/
def addFits : (Kind × Kind) × AddRule → Bool
  | (k, .scaling) => k = (.scaling, .scaling)
  | (k, .kron) => k = (.kron, .kron)
  | (k, .idkron) => k = (.idkron, .idkron)
  | (k, .matrix) => k = (.matrix, .matrix)
  | ((k, _), .zeroLeft) => k = .zero
  | ((_, k), .zeroRight) => k = .zero

theorem addReg_fits : ∀ e ∈ addReg, addFits e = true := by decide

/-- The classes a function registered for products expects. -/
def matmulFits : (Kind × Kind) × MatmulRule → Bool
  | (k, .scaling) => k = (.scaling, .scaling)
  | ((k, _), .scaledLeft) => k = .scaled ∨ k = .negated
  | ((_, k), .scaledRight) => k = .scaled ∨ k = .negated
  | ((k, l), .kron) => (k = .kron ∨ k = .idkron) ∧ (l = .kron ∨ l = .idkron)
  | (k, .kronScaling) => k = (.kron, .scaling)
  | (k, .scalingKron) => k = (.scaling, .kron)
  | (k, .idkron) => k = (.idkron, .idkron)
  | (k, .idkronScaling) => k = (.idkron, .scaling)
  | (k, .scalingIdkron) => k = (.scaling, .idkron)
  | (k, .matrix) => k = (.matrix, .matrix)
  | (k, .scalingMatrix) => k = (.scaling, .matrix)
  | (k, .matrixScaling) => k = (.matrix, .scaling)
  | ((_, l), .opMatrix) => l = .matrix
  | ((k, _), .matrixOp) => k = .matrix
  | ((k, _), .matrixWrapped) => k = .matrix
  | ((_, l), .wrappedMatrix) => l = .matrix
  | ((k, _), .idLeft) => k = .identity
  | ((_, l), .idRight) => l = .identity
  | (k, .selectionEmbedding) => k = (.selection, .embedding)
  | ((k, _), .zeroLeft) => k = .zero
  | ((_, l), .zeroRight) => l = .zero

set_option maxRecDepth 4000 in
theorem matmulReg_fits : ∀ e ∈ matmulReg, matmulFits e = true := by decide

theorem kind_scaling {a : Op} (h : kind a = .scaling) : ∃ g i f, a = .scaling g i f := by
  cases a <;> simp_all [kind] <;> split at h <;> cases h
theorem kind_kron {a : Op} (h : kind a = .kron) : ∃ g A B, a = .kron g A B := by
  cases a <;> simp_all [kind] <;> split at h <;> cases h
theorem kind_idkron {a : Op} (h : kind a = .idkron) : ∃ g k B, a = .idkron g k B := by
  cases a <;> simp_all [kind] <;> split at h <;> cases h
theorem kind_matrix {a : Op} (h : kind a = .matrix) : ∃ g A, a = .matrix g A := by
  cases a <;> simp_all [kind] <;> split at h <;> cases h
theorem kind_zero {a : Op} (h : kind a = .zero) : ∃ g, a = .zero g := by
  cases a <;> simp_all [kind] <;> split at h <;> cases h
theorem kind_identity {a : Op} (h : kind a = .identity) : ∃ g, a = .identity g := by
  cases a <;> simp_all [kind] <;> split at h <;> cases h
theorem kind_selection {a : Op} (h : kind a = .selection) : ∃ g i, a = .selection g i := by
  cases a <;> simp_all [kind] <;> split at h <;> cases h
theorem kind_embedding {a : Op} (h : kind a = .embedding) : ∃ g t p f, a = .embedding g t p f := by
  cases a <;> simp_all [kind] <;> split at h <;> cases h
theorem kind_scaled {a : Op} (h : kind a = .scaled ∨ kind a = .negated) : ∃ g b s A, a = .scaled g b s A := by
  cases a <;> simp_all [kind]

/-! ## Comparison of operators -/

/-- No factor of a Kronecker product in the tree (following the factors) is a `lam` node. -/
def NoLambdaFactor : Op → Prop
  | .kron _ A B => kind A ≠ .lam ∧ kind B ≠ .lam ∧ NoLambdaFactor A ∧ NoLambdaFactor B
  | .idkron _ _ B => NoLambdaFactor B
  | _ => True

/-- Object identity implies equality of the modelled objects, and `==` is not asked to compare an instance of
`LambdaLinearOperator` itself. -/
structure Sane (env : Env) (a b : Op) : Prop where
  same : ∀ x y, env.same x y = true → x = y
  lam : env.lambdaClass = true → NoLambdaFactor a ∧ NoLambdaFactor b

theorem isIsotropic_meets {n : ℕ} (hn : 0 < n) {iso : Bool} {f : ℕ → ℝ} (h : iso = true → ∀ i, f i = f 0) :
    Meets (isIsotropic n iso f) fun i => (i = true → ∀ t < n, f t = f 0) := by
  unfold isIsotropic
  split
  · next hi => exact Meets.ok fun _ t _ => h hi t
  · rw [if_neg (by omega)]
    exact Meets.ok fun hd => by simpa using hd

/-- What a successful comparison means. -/
def EqPost (a b : Op) (t : Bool) : Prop :=
  t = true → a.rows = b.rows ∧ a.cols = b.cols ∧ Eqv a.rows a.cols (den a) (den b)

theorem eqOp_meets {full : Prop} {env : Env} {a b : Op} (hs : ∀ x y, env.same x y = true → x = y)
    (hl : env.lambdaClass = true → kind a ≠ .lam ∧ kind b ≠ .lam) (ha : Valid full a) (hb : Valid full b) :
    Meets (eqOp env a b) (EqPost a b) := by
  have other : Meets (.ok (env.same a b)) (EqPost a b) := Meets.ok fun h => by
    obtain rfl := hs a b h
    exact ⟨rfl, rfl, Eqv.refl _⟩
  have lamC : kind a = .lam ∨ kind b = .lam → env.lambdaClass = false := by
    intro h
    cases he : env.lambdaClass with
    | false => rfl
    | true => rcases h with h | h
              · exact absurd h (hl he).1
              · exact absurd h (hl he).2
  have nope : Meets (.ok false) (EqPost a b) := Meets.ok fun h => by cases h
  classical
  unfold eqOp
  split
  · next h A g B =>
    refine Meets.ok fun hd => ?_
    obtain ⟨h1, h2, h3⟩ := decide_eq_true_iff.1 hd
    refine ⟨h1, h2, ?_⟩
    rw [den, den]
    exact h3
  · next h g =>
    refine Meets.ok fun hd => ?_
    obtain ⟨h1, h2⟩ := decide_eq_true_iff.1 hd
    exact ⟨h1, h2, Eqv.of_eq (by rw [den, den])⟩
  · next h iso f g jso e =>
    split
    · exact nope
    · next hsh =>
      rw [not_not] at hsh
      have hr : 0 < h.rows := ha.node.rows
      have hr' : 0 < g.rows := hb.node.rows
      have i1 : iso = true → ∀ i, f i = f 0 := by cases ha; assumption
      have i2 : jso = true → ∀ i, e i = e 0 := by cases hb; assumption
      refine Meets.bind (isIsotropic_meets hr i1) fun i hi => ?_
      refine Meets.bind (P := fun j => j = true → ∀ t < g.rows, e t = e 0) ?_ fun j hj => ?_
      · split
        · exact isIsotropic_meets hr' i2
        · exact Meets.ok fun h => by cases h
      · have main : (∀ t < h.rows, f t = e t) → h.rows = g.rows ∧ h.cols = g.cols ∧
            Eqv h.rows h.cols (den (.scaling h iso f)) (den (.scaling g jso e)) := by
          intro hall
          refine ⟨hsh.1, hsh.2, ?_⟩
          intro s hs' t _
          rw [den, den]
          dsimp only
          rw [hall s hs']
        split
        · next hij =>
          refine Meets.ok fun hd => ?_
          have h0 := decide_eq_true_iff.1 hd
          refine main fun t ht => ?_
          rw [hi hij.1 t ht, h0, hj hij.2 t (hsh.1 ▸ ht)]
        · split
          · exact Meets.ok fun hd => main (decide_eq_true_iff.1 hd)
          · exact nope
  · rw [lamC (.inr rfl)]; exact nope
  · rw [lamC (.inl rfl)]; exact nope
  · rw [lamC (.inr rfl), if_neg (by simp)]; exact nope
  · rw [lamC (.inl rfl), if_neg (by simp)]; exact nope
  · rw [lamC (.inr rfl), if_neg (by simp)]; exact nope
  · rw [lamC (.inl rfl), if_neg (by simp)]; exact nope
  · exact other

theorem isOrEq_meets {full : Prop} {env : Env} {a b : Op} (hs : ∀ x y, env.same x y = true → x = y)
    (hl : env.lambdaClass = true → kind a ≠ .lam ∧ kind b ≠ .lam) (ha : Valid full a) (hb : Valid full b) :
    Meets (isOrEq env a b) (EqPost a b) := by
  unfold isOrEq
  split
  · next h =>
    obtain rfl := hs a b h
    exact Meets.ok fun _ => ⟨rfl, rfl, Eqv.refl _⟩
  · exact eqOp_meets hs hl ha hb

/-! ## Building results -/

theorem post_self {full : Prop} {a : Op} (h : Valid full a) : Post full a.rows a.cols (den a) a :=
  ⟨h, rfl, rfl, Eqv.refl _⟩

theorem post_matrix {full : Prop} {r c : ℕ} (hr : 0 < r) (hc : 0 < c) (A : Mat) : Post full r c A (mkMatrix r c A) :=
  ⟨valid_matrix hr hc A, rfl, rfl, Eqv.of_eq (by rw [mkMatrix, den])⟩

theorem mkSum_two {full : Prop} {a b : Op} {r c : ℕ} {M N : Mat} (ha : Post full r c M a) (hb : Post full r c N b) :
    Meets (mkSum [a, b]) (Post full r c (M + N)) := by
  have h := mkSum_valid (full := full) (l := [a, b]) (r := r) (c := c) (by simp)
    (by rintro x hx; simp only [List.mem_cons, List.not_mem_nil, or_false] at hx
        rcases hx with rfl | rfl
        · exact ha.valid
        · exact hb.valid)
    (by rintro x hx; simp only [List.mem_cons, List.not_mem_nil, or_false] at hx
        rcases hx with rfl | rfl
        · exact ⟨ha.rows, ha.cols⟩
        · exact ⟨hb.rows, hb.cols⟩) ⟨none, none, none, none⟩
  rw [h.1]
  refine Meets.ok ⟨h.2, rfl, rfl, ?_⟩
  rw [den_build, den, denSum_expand, denSum, denSum, denSum, add_zero]
  exact add_congr ha.den hb.den

theorem mkProd_two {full : Prop} {a b : Op} (ha : Valid full a) (hb : Valid full b) (h : a.cols = b.rows) :
    Meets (mkProd [a, b]) (Post full a.rows b.cols (mmul a.cols (den a) (den b))) := by
  obtain ⟨p, e, hv, hr, hc, -, -, hd⟩ := mkProd_valid (full := full) (a := a) (l := [b])
    (by rintro x hx; simp only [List.mem_cons, List.not_mem_nil, or_false] at hx
        rcases hx with rfl | rfl
        · exact ha
        · exact hb) ⟨h, trivial⟩
  rw [e]
  have hc' : p.cols = b.cols := hc
  refine Meets.ok ⟨hv, hr, hc', ?_⟩
  rw [hr, hc'] at hd
  refine hd.trans ?_
  simp only [denProd]
  exact mmul_congr (Eqv.refl _) (h ▸ mmul_eye _ _)

theorem kron_pos {r s : ℕ} (h : 0 < r * s) : 0 < r ∧ 0 < s :=
  ⟨Nat.pos_of_mul_pos_right h, Nat.pos_of_mul_pos_left h⟩

theorem post_kron {full : Prop} {A B : Op} {rA cA rB cB : ℕ} {M N : Mat} (hA : Post full rA cA M A)
    (hB : Post full rB cB N B) : Meets (mkKron A B) (Post full (rA * rB) (cA * cB) (kronM rB cB M N)) := by
  rw [mkKron_eq hA.valid.coh hB.valid.coh ⟨none, none, none, none⟩]
  refine Meets.ok ⟨valid_kron hA.valid hB.valid _, ?_, ?_, ?_⟩
  · show A.rows * B.rows = _
    rw [hA.rows, hB.rows]
  · show A.cols * B.cols = _
    rw [hA.cols, hB.cols]
  · rw [den_build, den, hB.rows, hB.cols]
    exact kronM_congr hA.den hB.den

theorem post_idkron {full : Prop} {k : ℕ} {B : Op} {rB cB : ℕ} {N : Mat} (hk : 0 < k)
    (hB : Post full rB cB N B) : Meets (mkIdkron k B) (Post full (k * rB) (k * cB) (kronM rB cB eye N)) := by
  rw [mkIdkron_eq hB.valid.coh ⟨none, none, none, none⟩]
  refine Meets.ok ⟨valid_idkron hk hB.valid _, ?_, ?_, ?_⟩
  · show k * B.rows = _
    rw [hB.rows]
  · show k * B.cols = _
    rw [hB.cols]
  · rw [den_build, den, hB.rows, hB.cols]
    exact kronM_congr (Eqv.refl _) hB.den

theorem bind_some {full : Prop} {r c : ℕ} {M : Mat} {x : Res Op} (h : Meets x (Post full r c M)) :
    Meets (x >>= fun y => (.ok (some y) : Res (Option Op))) fun o => ∀ y, o = some y → Post full r c M y :=
  Meets.bind h fun y hy => Meets.ok fun z hz => by cases hz; exact hy

/-! ## Unary minus -/

theorem denSum_neg {full : Prop} {r c : ℕ} : ∀ {l l' : List Op},
    List.Forall₂ (fun a b => Post full r c (-den a) b) l l' → Eqv r c (denSum l') (-denSum l)
  | _, _, .nil => by simp only [denSum, neg_zero]; exact Eqv.refl _
  | _, _, .cons h t => by
    simp only [denSum, neg_add]
    exact add_congr h.den (denSum_neg t)

theorem negOp_meets {full : Prop} : ∀ (n : ℕ) {a : Op}, Valid full a →
    Meets (negOp n a) (Post full a.rows a.cols (-den a))
  | 0, _, _ => Meets.fuel
  | n + 1, a, ha => by
    have neg : ∀ M : Mat, (-1 : ℝ) • M = -M := fun M => by funext i j; simp
    have fallback : Meets (mkScaled true (-1) a) (Post full a.rows a.cols (-den a)) := by
      rw [mkScaled_eq ha.coh a.fl]
      have := (mulPost_scaled (neg := true) ha (fun _ => by norm_num) (fun _ => rfl) a.fl).post
      rw [neg] at this
      exact Meets.ok this
    rw [negOp.eq_def]
    dsimp only
    split
    · next h A =>
      refine Meets.ok ?_
      have := post_matrix (full := full) ha.node.rows ha.node.cols (-A)
      rw [den]
      exact this
    · next h s A =>
      have hV := ha
      cases hV with
      | scaled hA h1 h2 _ h4 _ =>
        refine Meets.ok ⟨hA, h1.symm, h2.symm, ?_⟩
        rw [den, h4 rfl, neg, neg_neg]
        exact Eqv.refl _
    · next h l =>
      have hV := ha
      cases hV with
      | sum hne hl hsh _ =>
        refine Meets.bind (P := List.Forall₂ (fun a b => Post full h.rows h.cols (-den a) b) l) ?_ fun l' hl' => ?_
        · refine Meets.mapM fun x hx => (negOp_meets n (hl x hx)).mono fun y hy => ?_
          rw [(hsh x hx).1, (hsh x hx).2] at hy
          exact hy
        · have hne' : l' ≠ [] := by
            intro e
            subst e
            cases hl'
            exact hne rfl
          have hm := mkSum_valid (full := full) (l := l') (r := h.rows) (c := h.cols) hne'
            (fun x hx => by obtain ⟨_, _, hp⟩ := forall₂_mem_right hl' x hx; exact hp.valid)
            (fun x hx => by obtain ⟨_, _, hp⟩ := forall₂_mem_right hl' x hx; exact ⟨hp.rows, hp.cols⟩) h.fl
          rw [hm.1]
          refine Meets.ok ⟨hm.2, rfl, rfl, ?_⟩
          rw [den_build, den, den, denSum_expand]
          exact denSum_neg hl'
    · exact fallback

/-! ## Sums and differences -/

theorem bidx_lt {m t : ℕ} (ht : t < m) : bidx m t = t := by
  unfold bidx
  split <;> omega

theorem broadcast_eq {f : ℝ → ℝ → ℝ} {r c : ℕ} {A B : Mat} (hr : 0 < r) (hc : 0 < c) {full : Prop} :
    Meets (broadcast f r c A r c B) (Post full r c fun i j => f (A i j) (B i j)) := by
  unfold broadcast
  simp only [bdim, if_true]
  refine Meets.ok ((post_matrix hr hc _).congr ?_)
  intro i hi j hj
  have e : ∀ m t, t < m → bidx m t = t := by
    intro m t ht
    unfold bidx
    split <;> omega
  dsimp only
  rw [e r i hi, e c j hj]

theorem kron_left_inj {a b c d : ℕ} (ha : 0 < a) (h : a * b = c * d) (e : a = c) : b = d := by
  subst e
  exact Nat.eq_of_mul_eq_mul_left ha h

theorem kron_right_inj {a b c d : ℕ} (hb : 0 < b) (h : a * b = c * d) (e : b = d) : a = c := by
  subst e
  exact Nat.eq_of_mul_eq_mul_right hb h

theorem neg_kronM_left (r c : ℕ) (A B : Mat) : kronM r c (-A) B = -kronM r c A B := by
  funext i j
  simp [kronM]

theorem neg_kronM_right (r c : ℕ) (A B : Mat) : kronM r c A (-B) = -kronM r c A B := by
  funext i j
  simp [kronM]

/-- Outcome of a registered function: a right answer or `NotImplemented`. -/
def MaybePost (full : Prop) (r c : ℕ) (M : Mat) (o : Option Op) : Prop := ∀ t, o = some t → Post full r c M t

theorem maybe {full : Prop} {r c : ℕ} {M : Mat} {x : Res Op} (h : Meets x (Post full r c M)) :
    Meets (x >>= fun y => (.ok (some y) : Res (Option Op))) (MaybePost full r c M) :=
  Meets.bind h fun y hy => Meets.ok fun z hz => by cases hz; exact hy

theorem maybe_none {full : Prop} {r c : ℕ} {M : Mat} : Meets (.ok none) (MaybePost full r c M) :=
  Meets.ok fun _ h => by cases h

theorem maybe_some {full : Prop} {r c : ℕ} {M : Mat} {t : Op} (h : Post full r c M t) :
    Meets (.ok (some t)) (MaybePost full r c M) := Meets.ok fun _ e => by cases e; exact h

theorem maybe_fallback {full : Prop} {r c : ℕ} {M : Mat} {x : Res (Option Op)} {y : Res Op}
    (hx : Meets x (MaybePost full r c M)) (hy : Meets y (Post full r c M)) :
    Meets (x >>= fun o => match o with | some t => .ok t | none => y) (Post full r c M) := by
  refine Meets.bind hx fun o ho => ?_
  cases o with
  | none => exact hy
  | some t => exact Meets.ok (ho t rfl)

/-- The common part of `_add_kronecker` and `_sub_kronecker`; `σ` is `1` for `+` and `-1` for `-`. -/
theorem kron_combine {full : Prop} {env : Env} {σ : ℝ} {rec : Op → Op → Res Op} {g h : Hdr} {A B C D : Op}
    (hsane : Sane env (.kron g A B) (.kron h C D)) (ha : Valid full (.kron g A B)) (hb : Valid full (.kron h C D))
    (hr : g.rows = h.rows) (hc : g.cols = h.cols)
    (hrec : ∀ x y, Sane env x y → Valid full x → Valid full y → x.rows = y.rows → x.cols = y.cols →
      Meets (rec x y) (Post full x.rows x.cols (den x + σ • den y))) :
    Meets (do
      let p ← isOrEq env A C
      if p then do
        let S ← rec B D
        let r ← mkKron A S
        .ok (some r)
      else do
        let q ← isOrEq env B D
        if q then do
          let S ← rec A C
          let r ← mkKron S D
          .ok (some r)
        else .ok none) (MaybePost full g.rows g.cols (den (.kron g A B) + σ • den (.kron h C D))) := by
  cases ha with
  | kron hA hB a1 a2 _ =>
  cases hb with
  | kron hC hD b1 b2 _ =>
  have sl := hsane.lam
  have sAC : env.lambdaClass = true → kind A ≠ .lam ∧ kind C ≠ .lam := fun e => ⟨(sl e).1.1, (sl e).2.1⟩
  have sBD : env.lambdaClass = true → kind B ≠ .lam ∧ kind D ≠ .lam := fun e => ⟨(sl e).1.2.1, (sl e).2.2.1⟩
  have er : A.rows * B.rows = C.rows * D.rows := by rw [← a1, ← b1, hr]
  have ec : A.cols * B.cols = C.cols * D.cols := by rw [← a2, ← b2, hc]
  refine Meets.bind (isOrEq_meets hsane.same sAC hA hC) fun p hp => ?_
  split
  · next hpt =>
    obtain ⟨e1, e2, e3⟩ := hp hpt
    have f1 := kron_left_inj hA.node.rows er e1
    have f2 := kron_left_inj hA.node.cols ec e2
    refine Meets.bind (hrec B D ⟨hsane.same, fun e => ⟨(sl e).1.2.2.2, (sl e).2.2.2.2⟩⟩ hB hD f1 f2) fun S hS => ?_
    refine maybe ((post_kron (post_self hA) hS).mono fun t ht => ?_)
    rw [← a1, ← a2] at ht
    refine ht.congr (Eqv.trans (Eqv.of_eq ?_) (add_congr (Eqv.refl _) (smul_congr σ ?_)) (N := kronM B.rows B.cols (den A) (den B)
      + σ • kronM B.rows B.cols (den A) (den D)))
    · rw [kronM_add_right, kronM_smul_right]
    · rw [den, ← f1, ← f2, a1, a2]
      exact kronM_congr e3 (Eqv.refl _)
  · refine Meets.bind (isOrEq_meets hsane.same sBD hB hD) fun q hq => ?_
    split
    · next hqt =>
      obtain ⟨e1, e2, e3⟩ := hq hqt
      have f1 := kron_right_inj hB.node.rows er e1
      have f2 := kron_right_inj hB.node.cols ec e2
      refine Meets.bind (hrec A C ⟨hsane.same, fun e => ⟨(sl e).1.2.2.1, (sl e).2.2.2.1⟩⟩ hA hC f1 f2) fun S hS => ?_
      refine maybe ((post_kron hS (post_self hD)).mono fun t ht => ?_)
      rw [← e1, ← e2, ← a1, ← a2] at ht
      refine ht.congr (Eqv.trans (Eqv.of_eq ?_) (add_congr ?_ (smul_congr σ (Eqv.of_eq ?_)))
        (N := kronM B.rows B.cols (den A) (den D) + σ • kronM B.rows B.cols (den C) (den D)))
      · rw [kronM_add_left, kronM_smul_left]
      · rw [den, a1, a2]
        exact kronM_congr (Eqv.refl _) e3.symm
      · rw [den, ← e1, ← e2]
    · exact maybe_none

theorem idkron_combine {full : Prop} {env : Env} {σ : ℝ} {rec : Op → Op → Res Op} {g h : Hdr} {k l : ℕ} {B D : Op}
    (hsane : Sane env (.idkron g k B) (.idkron h l D)) (ha : Valid full (.idkron g k B))
    (hb : Valid full (.idkron h l D)) (hr : g.rows = h.rows) (hc : g.cols = h.cols)
    (hrec : ∀ x y, Sane env x y → Valid full x → Valid full y → x.rows = y.rows → x.cols = y.cols →
      Meets (rec x y) (Post full x.rows x.cols (den x + σ • den y))) :
    Meets (if k = l then do
        let S ← rec B D
        let r ← mkIdkron k S
        .ok (some r)
      else .ok none) (MaybePost full g.rows g.cols (den (.idkron g k B) + σ • den (.idkron h l D))) := by
  have hpos : 0 < g.rows := ha.node.rows
  cases ha with
  | idkron hB a1 a2 _ =>
  cases hb with
  | idkron hD b1 b2 _ =>
  split
  · next hk =>
    subst hk
    rw [a1] at hpos
    have hk := (kron_pos hpos).1
    have f1 : B.rows = D.rows := Nat.eq_of_mul_eq_mul_left hk (by rw [← a1, ← b1, hr])
    have f2 : B.cols = D.cols := Nat.eq_of_mul_eq_mul_left hk (by rw [← a2, ← b2, hc])
    refine Meets.bind (hrec B D ⟨hsane.same, hsane.lam⟩ hB hD f1 f2) fun S hS => ?_
    refine maybe ((post_idkron hk hS).mono fun t ht => ?_)
    rw [← a1, ← a2] at ht
    refine ht.congr (Eqv.of_eq ?_)
    rw [kronM_add_right, kronM_smul_right, den, den, f1, f2]
  · exact maybe_none

theorem scaling_combine {full : Prop} {g h : Hdr} {i j : Bool} {f e : ℕ → ℝ} (φ : ℝ → ℝ → ℝ) (h0 : φ 0 0 = 0)
    (ha : Valid full (.scaling g i f)) (hr : g.rows = h.rows) (hc : g.cols = h.cols) :
    Meets (if h.rows ≠ g.rows ∨ h.cols ≠ g.cols then .error .valueError
      else .ok (some (mkScalingAniso g.rows fun t => φ (f t) (e t)))) (MaybePost full g.rows g.cols fun s t =>
        φ (den (.scaling g i f) s t) (den (.scaling h j e) s t)) := by
  have hpos : 0 < g.rows := ha.node.rows
  have hsq : g.rows = g.cols := by cases ha; assumption
  rw [if_neg (by simp [hr, hc])]
  refine maybe_some ⟨valid_scalingAniso hpos _, rfl, hsq, ?_⟩
  intro s _ t _
  simp only [mkScalingAniso, den]
  split <;> simp [h0]

theorem addOp_meets {full : Prop} {env : Env} : ∀ (n : ℕ) {a b : Op}, Sane env a b → Valid full a → Valid full b →
    a.rows = b.rows → a.cols = b.cols → Meets (addOp env n a b) (Post full a.rows a.cols (den a + den b))
  | 0, _, _, _, _, _, _, _ => Meets.fuel
  | n + 1, a, b, hsane, ha, hb, hr, hc => by
    have ih : ∀ x y, Sane env x y → Valid full x → Valid full y → x.rows = y.rows → x.cols = y.cols →
        Meets (addOp env n x y) (Post full x.rows x.cols (den x + (1 : ℝ) • den y)) := by
      intro x y h1 h2 h3 h4 h5
      rw [one_smul]
      exact addOp_meets n h1 h2 h3 h4 h5
    have hb' : Post full a.rows a.cols (den b) b := ⟨hb, hr.symm, hc.symm, Eqv.refl _⟩
    have fallback : Meets (mkSum [a, b]) (Post full a.rows a.cols (den a + den b)) := mkSum_two (post_self ha) hb'
    rw [addOp]
    split
    · exact fallback
    · next r hl =>
      refine maybe_fallback ?_ fallback
      have hf := addReg_fits _ (lookup_mem hl)
      cases r <;> simp only [addFits, decide_eq_true_eq, Prod.mk.injEq] at hf
      · obtain ⟨g, i, f, rfl⟩ := kind_scaling hf.1
        obtain ⟨h, j, e, rfl⟩ := kind_scaling hf.2
        exact scaling_combine (fun x y => x + y) (add_zero 0) ha hr hc
      · obtain ⟨g, A, B, rfl⟩ := kind_kron hf.1
        obtain ⟨h, C, D, rfl⟩ := kind_kron hf.2
        have := kron_combine (σ := 1) hsane ha hb hr hc ih
        rw [one_smul] at this
        exact this
      · obtain ⟨g, k, B, rfl⟩ := kind_idkron hf.1
        obtain ⟨h, l, D, rfl⟩ := kind_idkron hf.2
        have := idkron_combine (σ := 1) hsane ha hb hr hc ih
        rw [one_smul] at this
        exact this
      · obtain ⟨g, A, rfl⟩ := kind_matrix hf.1
        obtain ⟨h, B, rfl⟩ := kind_matrix hf.2
        have hr : g.rows = h.rows := hr
        have hc : g.cols = h.cols := hc
        simp only [runAdd]
        rw [← hr, ← hc]
        refine maybe ((broadcast_eq ha.node.rows ha.node.cols).mono fun t ht => ht.congr (Eqv.of_eq ?_))
        rw [den, den]
        rfl
      · obtain ⟨g, rfl⟩ := kind_zero hf
        have : Post full g.rows g.cols (den (.zero g) + den b) b := by
          rw [den, zero_add]
          exact hb'
        cases b <;> simp only [runAdd] <;> rw [if_neg (by simp [hr, hc])] <;> exact maybe_some this
      · obtain ⟨g, rfl⟩ := kind_zero hf
        have : Post full a.rows a.cols (den a + den (.zero g)) a := by
          rw [den, add_zero]
          exact post_self ha
        cases a <;> simp only [runAdd] <;> rw [if_neg (by simp [hr, hc])] <;> exact maybe_some this

theorem subOp_meets {full : Prop} {env : Env} : ∀ (n : ℕ) {a b : Op}, Sane env a b → Valid full a → Valid full b →
    a.rows = b.rows → a.cols = b.cols → Meets (subOp env n a b) (Post full a.rows a.cols (den a - den b))
  | 0, _, _, _, _, _, _, _ => Meets.fuel
  | n + 1, a, b, hsane, ha, hb, hr, hc => by
    have neg : ∀ M N : Mat, M + (-1 : ℝ) • N = M - N := fun M N => by funext i j; simp [sub_eq_add_neg]
    have ih : ∀ x y, Sane env x y → Valid full x → Valid full y → x.rows = y.rows → x.cols = y.cols →
        Meets (subOp env n x y) (Post full x.rows x.cols (den x + (-1 : ℝ) • den y)) := by
      intro x y h1 h2 h3 h4 h5
      rw [neg]
      exact subOp_meets n h1 h2 h3 h4 h5
    have hneg : Meets (negOp n b) (Post full a.rows a.cols (-den b)) := by
      rw [hr, hc]
      exact negOp_meets n hb
    have fallback : Meets (negOp n b >>= fun m => mkSum [a, m]) (Post full a.rows a.cols (den a - den b)) := by
      refine Meets.bind hneg fun m hm => ?_
      rw [sub_eq_add_neg]
      exact mkSum_two (post_self ha) hm
    rw [subOp]
    split
    · exact fallback
    · next r hl =>
      refine maybe_fallback ?_ fallback
      have hf := addReg_fits _ (lookup_mem hl)
      cases r <;> simp only [addFits, decide_eq_true_eq, Prod.mk.injEq] at hf
      · obtain ⟨g, i, f, rfl⟩ := kind_scaling hf.1
        obtain ⟨h, j, e, rfl⟩ := kind_scaling hf.2
        exact scaling_combine (fun x y => x - y) (sub_zero 0) ha hr hc
      · obtain ⟨g, A, B, rfl⟩ := kind_kron hf.1
        obtain ⟨h, C, D, rfl⟩ := kind_kron hf.2
        have := kron_combine (σ := -1) hsane ha hb hr hc ih
        rw [neg] at this
        exact this
      · obtain ⟨g, k, B, rfl⟩ := kind_idkron hf.1
        obtain ⟨h, l, D, rfl⟩ := kind_idkron hf.2
        have := idkron_combine (σ := -1) hsane ha hb hr hc ih
        rw [neg] at this
        exact this
      · obtain ⟨g, A, rfl⟩ := kind_matrix hf.1
        obtain ⟨h, B, rfl⟩ := kind_matrix hf.2
        have hr : g.rows = h.rows := hr
        have hc : g.cols = h.cols := hc
        simp only [runSub]
        rw [← hr, ← hc]
        refine maybe ((broadcast_eq ha.node.rows ha.node.cols).mono fun t ht => ht.congr (Eqv.of_eq ?_))
        rw [den, den]
        rfl
      · obtain ⟨g, rfl⟩ := kind_zero hf
        have : Meets (negOp n b >>= fun r => (.ok (some r) : Res (Option Op)))
            (MaybePost full g.rows g.cols (den (.zero g) - den b)) := by
          rw [den, zero_sub]
          exact maybe hneg
        cases b <;> simp only [runSub] <;> rw [if_neg (by simp [hr, hc])] <;> exact this
      · obtain ⟨g, rfl⟩ := kind_zero hf
        have : Post full a.rows a.cols (den a - den (.zero g)) a := by
          rw [den, sub_zero]
          exact post_self ha
        cases a <;> simp only [runSub] <;> rw [if_neg (by simp [hr, hc])] <;> exact maybe_some this

/-! ## Products -/

theorem rmatArr_meets {full : Prop} {β : Type} (n : ℕ) {b : Op} (hb : Valid full b) (x : β → ℕ → ℝ) :
    Meets (rmatArr n b b.rows x) fun y => ∀ t, ∀ j < b.cols, y t j = ∑ i ∈ range b.rows, x t i * den b i j := by
  unfold rmatArr
  rw [if_neg (by simp)]
  refine Meets.bind (T_meets n hb) fun t ht => ?_
  have hc : t.cols = b.rows := ht.cols
  rw [← hc]
  refine Meets.bind ((level full n).mat ht.valid 1 _) fun y hy => Meets.ok fun s j hj => ?_
  have := hy s j (ht.rows ▸ hj) 0 (by omega)
  rw [this]
  simp only [mmul]
  refine sum_congr rfl fun i hi => ?_
  rw [ht.den j hj i (hc ▸ mem_range.1 hi), trn, mul_comm]

theorem selection_embedding {g h : Hdr} {idx : List ℕ} (hlen : idx.length = g.rows) (hnd : idx.Nodup)
    (hlt : ∀ i ∈ idx, i < g.cols) (hc : h.cols = g.rows) :
    Eqv g.rows h.cols (mmul g.cols (den (.selection g idx)) (den (.embedding h (List.range h.cols) idx 0))) eye := by
  intro i hi j hj
  have getD : ∀ t (ht : t < idx.length), idx.getD t 0 = idx[t] := fun t ht => by
    rw [List.getD_eq_getElem _ _ ht]
  have hil : i < idx.length := hlen ▸ hi
  have hjl : j < idx.length := by rw [hlen, ← hc]; exact hj
  simp only [mmul, den]
  rw [sum_eq_single (idx.getD i 0)]
  · rw [if_pos rfl, one_mul, sum_eq_single j]
    · have e : (List.range h.cols).getD j 0 = j := by
        rw [List.getD_eq_getElem _ _ (by simpa using hj), List.getElem_range]
      rw [e]
      simp only [eye, and_true]
      congr 1
      rw [getD i hil, getD j hjl, eq_iff_iff, hnd.getElem_inj_iff]
      exact eq_comm
    · intro p hp hpj
      have hp' : p < h.cols := by rw [hc, ← hlen]; exact mem_range.1 hp
      have e : (List.range h.cols).getD p 0 = p := by
        rw [List.getD_eq_getElem _ _ (by simpa using hp'), List.getElem_range]
      rw [e, if_neg (fun h => hpj h.2)]
    · intro h
      exact absurd (mem_range.2 hjl) h
  · intro t _ ht
    rw [if_neg (fun h => ht h.symm), zero_mul]
  · intro h
    refine absurd (mem_range.2 (hlt _ ?_)) h
    rw [getD i hil]
    exact List.getElem_mem hil

theorem mulIso_meets {n : ℕ} {h : Hdr} {iso : Bool} {f : ℕ → ℝ} {op : Op} {c r : ℕ} (e : c = r)
    (hs : Valid False (.scaling h iso f)) (hop : Valid False op) {M : Mat}
    (hM : (∀ t < h.rows, f t = f 0) → Eqv op.rows op.cols (f 0 • den op) M) :
    Meets (runMatmul.mulIso n c r h iso f op) (MaybePost False op.rows op.cols M) := by
  unfold runMatmul.mulIso
  rw [if_neg (by simpa using e)]
  have hr : 0 < h.rows := hs.node.rows
  refine Meets.bind (isIsotropic_meets hr (by cases hs; assumption)) fun i hi => ?_
  split
  · next hit =>
    exact maybe ((mulScalar_meets n hop (fun h => h.elim)).mono fun t ht => ht.post.congr (hM (hi hit)))
  · exact maybe_none

theorem iso_left {h : Hdr} {iso : Bool} {f : ℕ → ℝ} {r c : ℕ} {M : Mat} (e : r = h.rows) (hc : h.cols = r)
    (hf : ∀ t < h.rows, f t = f 0) : Eqv r c (f 0 • M) (mmul h.cols (den (.scaling h iso f)) M) := by
  subst e
  rw [hc, den]
  refine Eqv.trans ?_ (diag_mmul _ _ _).symm
  intro i hi j _
  show f 0 * M i j = f i * M i j
  rw [hf i hi]

theorem iso_right {h : Hdr} {iso : Bool} {f : ℕ → ℝ} {r c : ℕ} {M : Mat} (e : c = h.rows)
    (hf : ∀ t < h.rows, f t = f 0) : Eqv r c (f 0 • M) (mmul c M (den (.scaling h iso f))) := by
  subst e
  rw [den]
  refine Eqv.trans ?_ (mmul_diag _ _ _).symm
  intro i _ j hj
  show f 0 * M i j = M i j * f j
  rw [hf j hj, mul_comm]

theorem kronParts_kind {a : Op} (h : kind a = .kron ∨ kind a = .idkron) (ha : Valid False a) :
    ∃ A B, kronParts a = some (A, B) ∧ Valid False A ∧ Valid False B ∧ a.rows = A.rows * B.rows ∧
      a.cols = A.cols * B.cols ∧ den a = kronM B.rows B.cols (den A) (den B) := by
  rcases h with h | h
  · obtain ⟨g, A, B, rfl⟩ := kind_kron h
    cases ha with
    | kron hA hB a1 a2 _ => exact ⟨A, B, rfl, hA, hB, a1, a2, by rw [den]⟩
  · obtain ⟨g, k, B, rfl⟩ := kind_idkron h
    have hpos : 0 < g.rows := ha.node.rows
    cases ha with
    | idkron hB a1 a2 _ =>
      rw [a1] at hpos
      refine ⟨mkIdentity k, B, rfl, valid_identity (kron_pos hpos).1, hB, a1, a2, ?_⟩
      rw [den, mkIdentity, den]

theorem matmulOp_meets {env : Env} : ∀ (n : ℕ) {a b : Op}, Valid False a → Valid False b → a.cols = b.rows →
    Meets (matmulOp env n a b) (Post False a.rows b.cols (mmul a.cols (den a) (den b)))
  | 0, _, _, _, _, _ => Meets.fuel
  | n + 1, a, b, ha, hb, hab => by
    have ih : ∀ {x y : Op}, Valid False x → Valid False y → x.cols = y.rows →
        Meets (matmulOp env n x y) (Post False x.rows y.cols (mmul x.cols (den x) (den y))) :=
      fun h1 h2 h3 => matmulOp_meets n h1 h2 h3
    have fallback := mkProd_two ha hb hab
    have hnab : ¬ (a.cols ≠ b.rows) := by simpa using hab
    have ra := ha.node.rows
    have ca := ha.node.cols
    have rb := hb.node.rows
    have cb := hb.node.cols
    rw [matmulOp]
    split
    · exact fallback
    · next r hl =>
      refine maybe_fallback ?_ fallback
      have hf := matmulReg_fits _ (lookup_mem hl)
      clear fallback hl
      have opMat : ∀ {g : Hdr} {A : Mat}, b = .matrix g A → Meets (do
          let y ← matArr n a (β := Unit) g.rows g.cols fun _ => A
          (.ok (some (mkMatrix a.rows g.cols (y ()))) : Res (Option Op)))
          (MaybePost False a.rows b.cols (mmul a.cols (den a) (den b))) := by
        rintro g A rfl
        have e : g.rows = a.cols := hab.symm
        rw [e]
        refine Meets.bind ((level False n).mat ha _ _) fun y hy => maybe_some ?_
        refine (post_matrix ra cb _).congr ?_
        rw [den]
        exact hy ()
      have matOp : ∀ {g : Hdr} {A : Mat}, a = .matrix g A → Meets (do
          let y ← rmatArr n b g.cols A
          (.ok (some (mkMatrix g.rows b.cols y)) : Res (Option Op)))
          (MaybePost False a.rows b.cols (mmul a.cols (den a) (den b))) := by
        rintro g A rfl
        have e : g.cols = b.rows := hab
        rw [e]
        refine Meets.bind (rmatArr_meets n hb A) fun y hy => maybe_some ?_
        refine (post_matrix ra cb _).congr ?_
        have hd : den (.matrix g A) = A := by rw [den]
        rw [hd, hab]
        exact fun i _ j hj => hy i j hj
      cases r <;> simp only [matmulFits, decide_eq_true_eq, Prod.mk.injEq] at hf
      case scaling =>
        obtain ⟨g, i, f, rfl⟩ := kind_scaling hf.1
        obtain ⟨h, j, e, rfl⟩ := kind_scaling hf.2
        have s1 : g.rows = g.cols := by cases ha; assumption
        have s2 : h.rows = h.cols := by cases hb; assumption
        have hab : g.cols = h.rows := hab
        simp only [runMatmul]
        rw [if_neg (by rw [s1, hab, ← s2]; simp)]
        refine maybe_some ⟨valid_scalingAniso ra _, rfl, ?_, ?_⟩
        · show g.rows = h.cols
          omega
        · have hd : den (.scaling g i f) = fun i j => if i = j then f i else 0 := by rw [den]
          show Eqv g.rows h.cols _ (mmul g.cols _ _)
          rw [hd, ← s1]
          refine Eqv.trans ?_ (diag_mmul _ _ _).symm
          intro s _ t _
          simp only [mkScalingAniso, den]
          split <;> simp
      case scaledLeft =>
        obtain ⟨g, neg, s, A, rfl⟩ := kind_scaled hf
        have hV := ha
        cases hV with
        | scaled hA h1 h2 _ _ _ =>
          have e : A.cols = b.rows := h2.symm.trans hab
          have key : Meets (matmulOp env n A b >>= fun p => mulScalar n s p >>= fun r => (.ok (some r) : Res (Option Op)))
              (MaybePost False g.rows b.cols (mmul g.cols (den (.scaled g neg s A)) (den b))) := by
            refine Meets.bind (ih hA hb e) fun p hp => ?_
            refine maybe ((mulScalar_meets n hp.valid (fun h => h.elim)).mono fun t ht => ?_)
            refine ⟨ht.valid, by rw [ht.rows, hp.rows, h1], by rw [ht.cols, hp.cols], ?_⟩
            have := ht.den
            rw [hp.rows, hp.cols] at this
            rw [h1]
            refine this.trans ?_
            have hd : den (.scaled g neg s A) = s • den A := by rw [den]
            rw [hd, smul_mmul, h2]
            exact smul_congr s hp.den
          cases b <;> exact key
      case scaledRight =>
        obtain ⟨g, neg, s, B, rfl⟩ := kind_scaled hf
        have hV := hb
        cases hV with
        | scaled hB h1 h2 _ _ _ =>
          have e : a.cols = B.rows := Eq.trans hab h1
          have key : Meets (matmulOp env n a B >>= fun p => mulScalar n s p >>= fun r => (.ok (some r) : Res (Option Op)))
              (MaybePost False a.rows g.cols (mmul a.cols (den a) (den (.scaled g neg s B)))) := by
            refine Meets.bind (ih ha hB e) fun p hp => ?_
            refine maybe ((mulScalar_meets n hp.valid (fun h => h.elim)).mono fun t ht => ?_)
            refine ⟨ht.valid, by rw [ht.rows, hp.rows], by rw [ht.cols, hp.cols, h2], ?_⟩
            have := ht.den
            rw [hp.rows, hp.cols] at this
            rw [h2]
            refine this.trans ?_
            have hd : den (.scaled g neg s B) = s • den B := by rw [den]
            rw [hd, mmul_smul]
            exact smul_congr s hp.den
          cases a <;> exact key
      case kron =>
        obtain ⟨A, B, pa, hA, hB, a1, a2, da⟩ := kronParts_kind hf.1 ha
        obtain ⟨C, D, pb, hC, hD, b1, b2, db⟩ := kronParts_kind hf.2 hb
        have key : Meets (if a.cols ≠ b.rows then (.error .valueError : Res (Option Op))
            else match kronParts a, kronParts b with
              | some (A, B), some (C, D) =>
                if ¬ (A.cols = C.rows ∧ B.cols = D.rows) then .ok none
                else do
                  let P ← matmulOp env n A C
                  let Q ← matmulOp env n B D
                  let r ← mkKron P Q
                  .ok (some r)
              | _, _ => .error .typeError) (MaybePost False a.rows b.cols (mmul a.cols (den a) (den b))) := by
          rw [if_neg hnab, pa, pb]
          dsimp only
          split
          · exact maybe_none
          · next hch =>
            rw [not_not] at hch
            refine Meets.bind (ih hA hC hch.1) fun P hP => Meets.bind (ih hB hD hch.2) fun Q hQ => ?_
            refine maybe ((post_kron hP hQ).mono fun t ht => ?_)
            rw [← a1, ← b2] at ht
            refine ht.congr (Eqv.of_eq ?_)
            rw [da, db, a2, ← kronM_mmul, ← hch.2]
        cases a <;> cases b <;> exact key
      case kronScaling =>
        obtain ⟨h, j, e, rfl⟩ := kind_scaling hf.2
        have s2 : h.rows = h.cols := by cases hb; assumption
        have key := mulIso_meets (n := n) (M := mmul a.cols (den a) (den (.scaling h j e))) hab hb ha
          fun hall => iso_right hab hall
        have hc : (Op.scaling h j e).cols = a.cols := (Eq.trans hab s2).symm
        rw [hc]
        cases a <;> exact key
      case idkronScaling =>
        obtain ⟨h, j, e, rfl⟩ := kind_scaling hf.2
        have s2 : h.rows = h.cols := by cases hb; assumption
        have key := mulIso_meets (n := n) (M := mmul a.cols (den a) (den (.scaling h j e))) hab hb ha
          fun hall => iso_right hab hall
        have hc : (Op.scaling h j e).cols = a.cols := (Eq.trans hab s2).symm
        rw [hc]
        cases a <;> exact key
      case scalingKron =>
        obtain ⟨h, j, e, rfl⟩ := kind_scaling hf.1
        have s1 : h.rows = h.cols := by cases ha; assumption
        have hr : b.rows = h.rows := (Eq.trans s1 hab).symm
        have key := mulIso_meets (n := n) (M := mmul h.cols (den (.scaling h j e)) (den b)) hab ha hb
          fun hall => iso_left hr hab hall
        have e' : (Op.scaling h j e).rows = b.rows := hr.symm
        rw [e']
        cases b <;> exact key
      case scalingIdkron =>
        obtain ⟨h, j, e, rfl⟩ := kind_scaling hf.1
        have s1 : h.rows = h.cols := by cases ha; assumption
        have hr : b.rows = h.rows := (Eq.trans s1 hab).symm
        have key := mulIso_meets (n := n) (M := mmul h.cols (den (.scaling h j e)) (den b)) hab ha hb
          fun hall => iso_left hr hab hall
        have e' : (Op.scaling h j e).rows = b.rows := hr.symm
        rw [e']
        cases b <;> exact key
      case idkron =>
        obtain ⟨g, k, B, rfl⟩ := kind_idkron hf.1
        obtain ⟨h, l, D, rfl⟩ := kind_idkron hf.2
        have ra : 0 < g.rows := ra
        have hab : g.cols = h.rows := hab
        have hda : den (.idkron g k B) = kronM B.rows B.cols eye (den B) := by rw [den]
        have hdb : den (.idkron h l D) = kronM D.rows D.cols eye (den D) := by rw [den]
        cases ha with
        | idkron hB a1 a2 _ =>
        cases hb with
        | idkron hD b1 b2 _ =>
          simp only [runMatmul]
          rw [if_neg (by simpa using hab)]
          split
          · exact maybe_none
          · next hch =>
            rw [not_not] at hch
            obtain ⟨rfl, hch⟩ := hch
            rw [a1] at ra
            refine Meets.bind (ih hB hD hch) fun Q hQ => ?_
            refine maybe ((post_idkron (kron_pos ra).1 hQ).mono fun t ht => ?_)
            refine ⟨ht.valid, ht.rows.trans a1.symm, ht.cols.trans b2.symm, ?_⟩
            have := ht.den
            show Eqv g.rows h.cols _ (mmul g.cols _ _)
            rw [hda, hdb, a2, ← hch, kronM_mmul, a1, b2]
            exact this.trans (kronM_congr (eye_mmul _ _).symm (Eqv.refl _))
      case matrix =>
        obtain ⟨g, A, rfl⟩ := kind_matrix hf.1
        obtain ⟨h, B, rfl⟩ := kind_matrix hf.2
        simp only [runMatmul]
        split
        · exact maybe_none
        · have hab' : g.cols = h.rows := hab
          rw [if_neg (not_not.2 hab')]
          refine maybe_some ((post_matrix ra cb _).congr (Eqv.of_eq ?_))
          rw [den, den]
          rfl
      case scalingMatrix =>
        obtain ⟨h, j, e, rfl⟩ := kind_scaling hf.1
        obtain ⟨g, A, rfl⟩ := kind_matrix hf.2
        have s1 : h.rows = h.cols := by cases ha; assumption
        have hr : g.rows = h.rows := (Eq.trans s1 hab).symm
        have hda : den (.scaling h j e) = fun i j => if i = j then e i else 0 := by rw [den]
        have hdb : den (.matrix g A) = A := by rw [den]
        simp only [runMatmul]
        refine maybe ?_
        unfold broadcast
        have b1 : bdim h.rows g.rows = some h.rows := by simp [bdim, hr]
        have b2 : bdim 1 g.cols = some g.cols := by
          unfold bdim
          split
          · next h => rw [← h]
          · rfl
        rw [b1, b2]
        refine Meets.ok ((post_matrix ra cb _).congr ?_)
        show Eqv h.rows g.cols _ (mmul h.cols _ _)
        rw [hda, hdb, ← s1]
        refine Eqv.trans ?_ (diag_mmul _ _ _).symm
        intro s hs t ht
        dsimp only
        rw [hr, bidx_lt hs, bidx_lt ht]
      case matrixScaling =>
        obtain ⟨g, A, rfl⟩ := kind_matrix hf.1
        obtain ⟨h, j, e, rfl⟩ := kind_scaling hf.2
        have s1 : h.rows = h.cols := by cases hb; assumption
        have hr : g.cols = h.rows := hab
        have hda : den (.scaling h j e) = fun i j => if i = j then e i else 0 := by rw [den]
        have hdb : den (.matrix g A) = A := by rw [den]
        simp only [runMatmul]
        refine maybe ?_
        unfold broadcast
        have b1 : bdim g.cols h.rows = some h.cols := by simp [bdim, hr, s1]
        have b2 : bdim g.rows 1 = some g.rows := by
          unfold bdim
          by_cases h1 : g.rows = 1 <;> simp [h1]
        rw [b1, b2]
        refine Meets.ok ((post_matrix ra cb _).congr ?_)
        show Eqv g.rows h.cols _ (mmul g.cols _ _)
        rw [hda, hdb, hr, s1]
        refine Eqv.trans ?_ (mmul_diag _ _ _).symm
        intro s hs t ht
        dsimp only
        rw [bidx_lt hs, bidx_lt ht]
      case opMatrix =>
        obtain ⟨g, A, rfl⟩ := kind_matrix hf
        cases a <;> exact opMat rfl
      case matrixOp =>
        obtain ⟨g, A, rfl⟩ := kind_matrix hf
        cases b <;> exact matOp rfl
      case matrixWrapped =>
        obtain ⟨g, A, rfl⟩ := kind_matrix hf
        cases b <;> simp only [runMatmul] <;> split <;> first | exact maybe_none | exact matOp rfl
      case wrappedMatrix =>
        obtain ⟨g, A, rfl⟩ := kind_matrix hf
        cases a <;> simp only [runMatmul] <;> split <;> first | exact maybe_none | exact opMat rfl
      case idLeft =>
        obtain ⟨g, rfl⟩ := kind_identity hf
        have s1 : g.rows = g.cols := by cases ha; assumption
        have hab : g.cols = b.rows := hab
        have hd : den (.identity g) = eye := by rw [den]
        have key : Post False g.rows b.cols (mmul g.cols (den (.identity g)) (den b)) b := by
          rw [hd, s1, hab]
          exact (post_self hb).congr (eye_mmul _ _).symm
        cases b <;> simp only [runMatmul] <;> rw [if_neg hnab] <;> exact maybe_some key
      case idRight =>
        obtain ⟨g, rfl⟩ := kind_identity hf
        have s1 : g.rows = g.cols := by cases hb; assumption
        have hab : a.cols = g.rows := hab
        have hd : den (.identity g) = eye := by rw [den]
        have key : Post False a.rows g.cols (mmul a.cols (den a) (den (.identity g))) a := by
          rw [hd, ← s1, ← hab]
          exact (post_self ha).congr (mmul_eye _ _).symm
        cases a <;> simp only [runMatmul] <;> rw [if_neg hnab] <;> exact maybe_some key
      case selectionEmbedding =>
        obtain ⟨g, idx, rfl⟩ := kind_selection hf.1
        obtain ⟨h, tk, put, fill, rfl⟩ := kind_embedding hf.2
        simp only [runMatmul]
        split
        · next hcond =>
          cases ha with
          | selection l1 l2 l3 l4 _ =>
          cases hb with
          | embedding m1 m2 m3 m4 _ =>
            obtain ⟨c1, c2⟩ := hcond
            have e : idx = put := by
              unfold indicesEqual at c2
              rw [if_pos (by omega)] at c2
              simpa using c2
            subst e
            refine maybe_some ⟨valid_identity ra, rfl, c1.symm, ?_⟩
            have hd : den (mkIdentity g.rows) = eye := by rw [mkIdentity, den]
            rw [hd]
            exact (selection_embedding l1 l4 l3 c1).symm
        · exact maybe_none
      case zeroLeft =>
        obtain ⟨g, rfl⟩ := kind_zero hf
        have hd : den (.zero g) = 0 := by rw [den]
        have key : Post False g.rows b.cols (mmul g.cols (den (.zero g)) (den b)) (mkZero g.rows b.cols) := by
          refine ⟨valid_zero ra cb, mkZero_rows _ _, mkZero_cols _ _, ?_⟩
          rw [hd, zero_mmul, mkZero, den]
          exact Eqv.refl _
        cases b <;> simp only [runMatmul] <;> rw [if_neg hnab] <;> exact maybe_some key
      case zeroRight =>
        obtain ⟨g, rfl⟩ := kind_zero hf
        have hd : den (.zero g) = 0 := by rw [den]
        have key : Post False a.rows g.cols (mmul a.cols (den a) (den (.zero g))) (mkZero a.rows g.cols) := by
          refine ⟨valid_zero ra cb, mkZero_rows _ _, mkZero_cols _ _, ?_⟩
          rw [hd, mmul_zero, mkZero, den]
          exact Eqv.refl _
        cases a <;> simp only [runMatmul] <;> rw [if_neg hnab] <;> exact maybe_some key

end Probnum.Linops
