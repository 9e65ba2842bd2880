import Verif.Linops.Apply
import Verif.Linops.DepthApply
import Verif.Quad.PropsExpQuad

/-! # Lemmas about Cholesky factors -/

namespace Probnum.Linops

open Finset

/-- `L` is the lower (upper) Cholesky factor of the `n × n` matrix `M`: triangular with a positive diagonal, and
`L Lᵀ = M` (`Lᵀ L = M`). -/
structure IsFactor (n : ℕ) (lower : Bool) (M L : Mat) : Prop where
  tri : if lower then IsLow n n L else IsUp n n L
  diag : ∀ i < n, 0 < L i i
  gram : Eqv n n (if lower then mmul n L (trn L) else mmul n (trn L) L) M

theorem IsFactor.congr {n : ℕ} {lower : Bool} {M M' L : Mat} (h : IsFactor n lower M L) (e : Eqv n n M M') :
    IsFactor n lower M' L := ⟨h.tri, h.diag, h.gram.trans e⟩

theorem IsFactor.congr_left {n : ℕ} {lower : Bool} {M L L' : Mat} (h : IsFactor n lower M L) (e : Eqv n n L L') :
    IsFactor n lower M L' := by
  refine ⟨?_, fun i hi => by rw [← e i hi i hi]; exact h.diag i hi, ?_⟩
  · cases lower
    · exact IsUp.congr e h.tri
    · exact IsLow.congr e h.tri
  · cases lower
    · exact (mmul_congr (trn_congr e.symm) e.symm).trans h.gram
    · exact (mmul_congr e.symm (trn_congr e.symm)).trans h.gram

/-- The transpose of a lower factor is the upper factor, and conversely. -/
theorem IsFactor.trn {n : ℕ} {lower : Bool} {M L : Mat} (h : IsFactor n lower M L) : IsFactor n (!lower) M (trn L) := by
  refine ⟨?_, h.diag, ?_⟩
  · cases lower
    · exact fun i hi j hj hij => h.tri j hj i hi hij
    · exact fun i hi j hj hij => h.tri j hj i hi hij
  · cases lower
    · exact h.gram
    · exact h.gram

theorem IsFactor.det {n : ℕ} {lower : Bool} {M L : Mat} (h : IsFactor n lower M L) : detM n L ≠ 0 := by
  have up : ∀ U : Mat, IsUp n n U → (∀ i < n, 0 < U i i) → detM n U ≠ 0 := by
    intro U h1 h2
    rw [detM, Matrix.det_of_upperTriangular]
    · exact Finset.prod_ne_zero_iff.2 fun i _ => (h2 i i.2).ne'
    · intro i j hij
      exact h1 i i.2 j j.2 hij
  cases lower
  · exact up L h.tri h.diag
  · rw [← detM_trn]
    exact up _ h.trn.tri h.diag

/-- A matrix that has a Cholesky factor is positive definite. -/
theorem IsFactor.isPd {n : ℕ} {lower : Bool} {M L : Mat} (h : IsFactor n lower M L) : IsPd n n M := by
  have key : ∀ U : Mat, detM n U ≠ 0 → IsPd n n (mmul n (Linops.trn U) U) := by
    intro U hU
    refine ⟨rfl, ?_⟩
    rw [toM_mmul, toM_trn, ← Matrix.conjTranspose_eq_transpose_of_trivial]
    refine Matrix.PosDef.conjTranspose_mul_self _ ?_
    have hu : IsUnit (toM n n U) := (Matrix.isUnit_iff_isUnit_det _).2 (isUnit_iff_ne_zero.2 hU)
    exact Matrix.mulVec_injective_iff_isUnit.2 hu
  cases lower
  · exact (key L h.det).congr h.gram
  · have := key (Linops.trn L) h.trn.det
    exact this.congr h.gram

theorem isFactor_eye (n : ℕ) (lower : Bool) : IsFactor n lower eye eye := by
  refine ⟨?_, fun i _ => by simp [eye], ?_⟩
  · cases lower
    · exact fun i _ j _ h => if_neg (by omega)
    · exact fun i _ j _ h => if_neg (by omega)
  · cases lower
    · exact (mmul_congr (Eqv.of_eq trn_eye) (Eqv.refl _)).trans (eye_mmul _ _)
    · exact (mmul_congr (Eqv.refl _) (Eqv.of_eq trn_eye)).trans (eye_mmul _ _)

theorem isFactor_diag {n : ℕ} (lower : Bool) {f g : ℕ → ℝ} (h : ∀ i < n, 0 < g i ∧ g i * g i = f i) :
    IsFactor n lower (fun i j => if i = j then f i else 0) (fun i j => if i = j then g i else 0) := by
  have hg : Linops.trn (fun i j => if i = j then g i else 0) = fun i j => if i = j then g i else 0 := by
    funext i j
    simp only [Linops.trn]
    by_cases hij : i = j
    · rw [if_pos hij, if_pos hij.symm, hij]
    · rw [if_neg hij, if_neg fun e => hij e.symm]
  have hm : Eqv n n (mmul n (fun i j => if i = j then g i else 0) (fun i j => if i = j then g i else 0))
      (fun i j => if i = j then f i else 0) := by
    refine (diag_mmul n g _).trans fun i hi j hj => ?_
    dsimp only
    split
    · exact (h i hi).2
    · exact mul_zero _
  refine ⟨?_, fun i hi => by rw [if_pos rfl]; exact (h i hi).1, ?_⟩
  · cases lower
    · exact isUp_diag n g
    · exact isLow_diag n g
  · rw [hg, ite_self]
    exact hm

theorem isFactor_kron {a b : ℕ} {lower : Bool} {M N L K : Mat} (h : IsFactor a lower M L) (h' : IsFactor b lower N K) :
    IsFactor (a * b) lower (kronM b b M N) (kronM b b L K) := by
  have pos : ∀ i < a * b, 0 < b := fun i hi => Nat.pos_of_ne_zero fun hb => by subst hb; omega
  have hdiv : ∀ i < a * b, i / b < a := fun i hi => (Nat.div_lt_iff_lt_mul (pos i hi)).2 hi
  have lt : ∀ i j, i < j → 0 < b → i / b < j / b ∨ (i / b = j / b ∧ i % b < j % b) := by
    intro i j hij hb
    rcases Nat.lt_or_ge (i / b) (j / b) with h | h
    · exact .inl h
    · have e : i / b = j / b := le_antisymm (Nat.div_le_div_right hij.le) h
      refine .inr ⟨e, ?_⟩
      have h1 := Nat.div_add_mod i b
      have h2 := Nat.div_add_mod j b
      rw [e] at h1
      omega
  refine ⟨?_, fun i hi => mul_pos (h.diag _ (hdiv i hi)) (h'.diag _ (Nat.mod_lt _ (pos i hi))), ?_⟩
  · cases lower
    · intro i hi j hj hij
      rcases lt j i hij (pos i hi) with e | ⟨_, e⟩
      · have : L (i / b) (j / b) = 0 := h.tri _ (hdiv i hi) _ (hdiv j hj) e
        simp [kronM, this]
      · have : K (i % b) (j % b) = 0 := h'.tri _ (Nat.mod_lt _ (pos i hi)) _ (Nat.mod_lt _ (pos i hi)) e
        simp [kronM, this]
    · intro i hi j hj hij
      rcases lt i j hij (pos i hi) with e | ⟨_, e⟩
      · have : L (i / b) (j / b) = 0 := h.tri _ (hdiv i hi) _ (hdiv j hj) e
        simp [kronM, this]
      · have : K (i % b) (j % b) = 0 := h'.tri _ (Nat.mod_lt _ (pos i hi)) _ (Nat.mod_lt _ (pos i hi)) e
        simp [kronM, this]
  · cases lower
    · simp only [Bool.false_eq_true, if_false, trn_kronM, kronM_mmul]
      exact kronM_congr h.gram h'.gram
    · simp only [if_true, trn_kronM, kronM_mmul]
      exact kronM_congr h.gram h'.gram

theorem trn_denBlock {l m : List Op} (h : List.Forall₂ (fun a b : Op => b.rows = a.cols ∧ b.cols = a.rows ∧
    Eqv a.cols a.rows (den b) (Linops.trn (den a))) l m) :
    Eqv (l.map Op.cols).sum (l.map Op.rows).sum (denBlock m) (Linops.trn (denBlock l)) := by
  induction h with
  | nil => intro i hi; simp at hi
  | @cons a b l m h _ ih =>
    intro i hi j hj
    simp only [List.map_cons, List.sum_cons] at hi hj
    rw [denBlock_cons]
    show _ = denBlock (a :: l) j i
    rw [denBlock_cons, h.1, h.2.1]
    by_cases h1 : i < a.cols <;> by_cases h2 : j < a.rows <;> simp only [h1, h2, if_true, if_false]
    · exact h.2.2 i h1 j h2
    · exact ih (i - a.cols) (by omega) (j - a.rows) (by omega)

/-- Factors of the diagonal blocks make up a factor of the block-diagonal matrix. -/
theorem isFactor_block {lower : Bool} {l m : List Op} (h : List.Forall₂ (fun a b : Op => a.rows = a.cols ∧
    b.rows = a.rows ∧ b.cols = a.rows ∧ IsFactor a.rows lower (den a) (den b)) l m) :
    IsFactor (l.map Op.rows).sum lower (denBlock l) (denBlock m) := by
  induction h with
  | nil => exact ⟨by cases lower <;> exact fun i hi => by simp at hi, fun i hi => by simp at hi, fun i hi => by simp at hi⟩
  | @cons a b l m h _ ih =>
    obtain ⟨h1, h2, h3, h4⟩ := h
    have hb : ∀ i j, denBlock (b :: m) i j = if i < a.rows then (if j < a.rows then den b i j else 0)
        else (if j < a.rows then 0 else denBlock m (i - a.rows) (j - a.rows)) := fun i j => by
      rw [denBlock_cons, h2, h3]
    have ha : ∀ i j, denBlock (a :: l) i j = if i < a.rows then (if j < a.rows then den a i j else 0)
        else (if j < a.rows then 0 else denBlock l (i - a.rows) (j - a.rows)) := fun i j => by
      rw [denBlock_cons, ← h1]
    simp only [List.map_cons, List.sum_cons]
    set s := (l.map Op.rows).sum
    set r := a.rows
    refine ⟨?_, ?_, ?_⟩
    · cases lower
      · intro i hi j hj hij
        rw [hb]
        by_cases i1 : i < r <;> by_cases j1 : j < r <;> simp only [i1, j1, if_true, if_false]
        · exact h4.tri i i1 j j1 hij
        · exact ih.tri (i - r) (by omega) (j - r) (by omega) (by omega)
      · intro i hi j hj hij
        rw [hb]
        by_cases i1 : i < r <;> by_cases j1 : j < r <;> simp only [i1, j1, if_true, if_false]
        · exact h4.tri i i1 j j1 hij
        · exact ih.tri (i - r) (by omega) (j - r) (by omega) (by omega)
    · intro i hi
      rw [hb]
      by_cases i1 : i < r <;> simp only [i1, if_true, if_false]
      · exact h4.diag i i1
      · exact ih.diag (i - r) (by omega)
    · intro i hi j hj
      rw [ha]
      cases lower
      · simp only [Bool.false_eq_true, if_false, mmul, Linops.trn, Finset.sum_range_add, hb]
        have z1 : ∀ k ∈ range r, (if k < r then (1 : ℝ) else 0) = 1 := fun k hk => if_pos (Finset.mem_range.1 hk)
        by_cases i1 : i < r <;> by_cases j1 : j < r <;> simp only [i1, j1, if_true, if_false]
        · rw [← h4.gram i i1 j j1]
          simp only [Bool.false_eq_true, if_false, mmul, Linops.trn]
          rw [Finset.sum_congr rfl fun k hk => by rw [if_pos (Finset.mem_range.1 hk), if_pos (Finset.mem_range.1 hk)]]
          simp
        · rw [Finset.sum_congr rfl fun k hk => by rw [if_pos (Finset.mem_range.1 hk), if_pos (Finset.mem_range.1 hk)]]
          simp
        · rw [Finset.sum_congr rfl fun k hk => by rw [if_pos (Finset.mem_range.1 hk), if_pos (Finset.mem_range.1 hk)]]
          simp
        · rw [← ih.gram (i - r) (by omega) (j - r) (by omega)]
          rw [Finset.sum_congr rfl fun k hk => by rw [if_pos (Finset.mem_range.1 hk), if_pos (Finset.mem_range.1 hk)]]
          simp [mmul, Linops.trn]
      · simp only [if_true, mmul, Linops.trn, Finset.sum_range_add, hb]
        by_cases i1 : i < r <;> by_cases j1 : j < r <;> simp only [i1, j1, if_true, if_false]
        · rw [← h4.gram i i1 j j1]
          simp only [if_true, mmul, Linops.trn]
          rw [Finset.sum_congr rfl fun k hk => by rw [if_pos (Finset.mem_range.1 hk), if_pos (Finset.mem_range.1 hk)]]
          simp
        · rw [Finset.sum_congr rfl fun k hk => by rw [if_pos (Finset.mem_range.1 hk), if_pos (Finset.mem_range.1 hk)]]
          simp
        · rw [Finset.sum_congr rfl fun k hk => by rw [if_pos (Finset.mem_range.1 hk), if_pos (Finset.mem_range.1 hk)]]
          simp
        · rw [← ih.gram (i - r) (by omega) (j - r) (by omega)]
          rw [Finset.sum_congr rfl fun k hk => by rw [if_pos (Finset.mem_range.1 hk), if_pos (Finset.mem_range.1 hk)]]
          simp [mmul, Linops.trn]

/-! ## Factors as operators -/

/-- The flag for the triangle a factor is asked for, and the other one. -/
def own (lower : Bool) (f : Flags) : Option Bool := if lower then f.low else f.up

def Flags.setOwn (lower : Bool) (f : Flags) : Flags :=
  if lower then { f with low := some true } else { f with up := some true }

@[simp] theorem own_setOwn (lower : Bool) (f : Flags) : own lower (f.setOwn lower) = some true := by cases lower <;> rfl
@[simp] theorem own_not_setOwn (lower : Bool) (f : Flags) : own (!lower) (f.setOwn lower) = own (!lower) f := by
  cases lower <;> rfl
@[simp] theorem own_swap (lower : Bool) (f : Flags) : own lower f.swap = own (!lower) f := by cases lower <;> rfl
@[simp] theorem sym_setOwn (lower : Bool) (f : Flags) : (f.setOwn lower).sym = f.sym := by cases lower <;> rfl
@[simp] theorem pd_setOwn (lower : Bool) (f : Flags) : (f.setOwn lower).pd = f.pd := by cases lower <;> rfl

theorem assign_own {c : Op} {lower : Bool} (h : own lower c.fl = none ∨ own lower c.fl = some true) :
    (if lower then c.assign setLow (some true) else c.assign setUp (some true)) =
      .ok (c.withFl (c.fl.setOwn lower)) := by
  cases lower
  · simp only [Bool.false_eq_true, if_false, Op.assign]
    rw [setUp_le (by simpa [own] using h), ok_bind]
    rfl
  · simp only [if_true, Op.assign]
    rw [setLow_le (by simpa [own] using h), ok_bind]
    rfl

theorem le_swap {lower : Bool} {t c : Flags} (h1 : t.sym = none ∨ t.sym = c.sym) (h2 : own lower t = none)
    (h3 : own (!lower) t = none ∨ own (!lower) t = some true) (h4 : own lower c = some true)
    (h5 : t.pd = none ∨ t.pd = c.pd) : t.Le c.swap := by
  cases lower
  · refine ⟨h1, ?_, .inl h2, h5⟩
    show t.low = none ∨ t.low = c.up
    rw [show c.up = some true from h4]
    exact h3
  · refine ⟨h1, .inl h2, ?_, h5⟩
    show t.up = none ∨ t.up = c.low
    rw [show c.low = some true from h4]
    exact h3

/-- Densification of `t` and products with arrays are those of the `r × r` matrix `M`. -/
structure ActsLike (r : ℕ) (M : Mat) (t : Op) : Prop where
  rows : t.rows = r
  cols : t.cols = r
  dense : ∀ m, Meets (todense m t) fun D => Eqv r r D M
  mat : ∀ m {β : Type} (k : ℕ) (x : β → Mat), Meets (matArr m t r k x) (IsProd r r k M x)

theorem ActsLike.congr {r : ℕ} {M N : Mat} {t : Op} (h : ActsLike r M t) (e : Eqv r r M N) : ActsLike r N t :=
  ⟨h.rows, h.cols, fun m => (h.dense m).mono fun _ hD => hD.trans e,
    fun m _ k x => (h.mat m k x).mono fun _ hy b => (hy b).trans (mmul_congr e (Eqv.refl _))⟩

theorem acts_matrix {h : Hdr} {r : ℕ} (L : Mat) (h1 : h.rows = r) (h2 : h.cols = r) : ActsLike r L (.matrix h L) := by
  refine ⟨h1, h2, ?_, ?_⟩
  · rintro (_ | m)
    · exact Meets.fuel
    · rw [todense]; exact Meets.ok (Eqv.refl _)
  · rintro (_ | m) β k x
    · rw [matArr]; exact Meets.fuel
    · rw [matArr.eq_def]
      dsimp only
      rw [if_neg (fun e => e h2.symm), h2]
      exact Meets.ok fun b => Eqv.refl _

theorem acts_kron {h : Hdr} {a b : ℕ} {M N : Mat} {A B : Op} (h1 : h.rows = a * b) (h2 : h.cols = a * b)
    (hA : ActsLike a M A) (hB : ActsLike b N B) : ActsLike (a * b) (kronM b b M N) (.kron h A B) := by
  refine ⟨h1, h2, ?_, ?_⟩
  · rintro (_ | m)
    · exact Meets.fuel
    · rw [todense]
      refine Meets.bind (hA.dense m) fun x hx => Meets.bind (hB.dense m) fun y hy => Meets.ok ?_
      rw [hB.rows, hB.cols]
      exact kronM_congr hx hy
  · rintro (_ | m) β k x
    · rw [matArr]; exact Meets.fuel
    · rw [matArr.eq_def]
      dsimp only
      rw [if_neg (fun e => e h2.symm), hB.cols, hA.cols, hB.rows]
      exact Meets.bind (hB.mat m a (swap (unvec b x))) fun y hy => Meets.bind (hA.mat m b (swap y)) fun z hz =>
        Meets.ok (isProd_kron k hy hz)

theorem acts_identity {h : Hdr} (h1 : h.rows = h.cols) : ActsLike h.rows eye (.identity h) := by
  refine ⟨rfl, h1.symm, ?_, ?_⟩
  · rintro (_ | m)
    · exact Meets.fuel
    · rw [todense]; exact Meets.ok (Eqv.refl _)
  · rintro (_ | m) β k x
    · rw [matArr]; exact Meets.fuel
    · rw [matArr.eq_def]
      dsimp only
      rw [if_neg (fun e => e h1)]
      exact Meets.ok fun b => (eye_mmul _ _).symm

theorem acts_scaling {h : Hdr} {iso : Bool} {f : ℕ → ℝ} (h1 : h.rows = h.cols) :
    ActsLike h.rows (fun i j => if i = j then f i else 0) (.scaling h iso f) := by
  refine ⟨rfl, h1.symm, ?_, ?_⟩
  · rintro (_ | m)
    · exact Meets.fuel
    · rw [todense]; exact Meets.ok (Eqv.refl _)
  · rintro (_ | m) β k x
    · rw [matArr]; exact Meets.fuel
    · rw [matArr.eq_def]
      dsimp only
      rw [if_neg (fun e => e h1)]
      exact Meets.ok fun b => (diag_mmul _ _ _).symm

theorem acts_idkron {h : Hdr} {k b : ℕ} {N : Mat} {B : Op} (h1 : h.rows = k * b) (h2 : h.cols = k * b)
    (hB : ActsLike b N B) : ActsLike (k * b) (kronM b b eye N) (.idkron h k B) := by
  have hI : ActsLike k eye (mkIdentity k) :=
    acts_identity (h := ⟨k, k, ⟨some true, some true, some true, some true⟩⟩) rfl
  refine ⟨h1, h2, ?_, ?_⟩
  · rintro (_ | m)
    · exact Meets.fuel
    · rw [todense]
      refine Meets.bind (hI.dense m) fun x hx => Meets.bind (hB.dense m) fun y hy => Meets.ok ?_
      rw [hB.rows, hB.cols]
      exact kronM_congr hx hy
  · rintro (_ | m) β q x
    · rw [matArr]; exact Meets.fuel
    · rw [matArr.eq_def]
      dsimp only
      rw [if_neg (fun e => e h2.symm), hB.cols, hB.rows]
      exact Meets.bind (hB.mat m k (swap (unvec b x))) fun y hy => Meets.bind (hI.mat m b (swap y)) fun z hz =>
        Meets.ok (isProd_kron q hy hz)

theorem acts_symkron {h : Hdr} {a : ℕ} {M : Mat} {A : Op} (h1 : h.rows = a * a) (h2 : h.cols = a * a)
    (hA : ActsLike a M A) : ActsLike (a * a) (kronM a a M M) (.symkron h true A A) := by
  refine ⟨h1, h2, ?_, ?_⟩
  · rintro (_ | m)
    · exact Meets.fuel
    · rw [todense]
      refine Meets.bind (hA.dense m) fun x hx => Meets.ok ?_
      rw [hA.rows, hA.cols]
      exact kronM_congr hx hx
  · rintro (_ | m) β k x
    · rw [matArr]; exact Meets.fuel
    · rw [matArr.eq_def]
      dsimp only
      rw [if_neg (fun e => e h2.symm), hA.cols, hA.rows]
      simp only [if_true]
      exact Meets.bind (hA.mat m a (swap (unvec a x))) fun y hy => Meets.bind (hA.mat m a (swap y)) fun z hz =>
        Meets.ok (isProd_kron k hy hz)

theorem acts_block {h : Hdr} {r : ℕ} {m : List Op} (h1 : h.rows = r) (h2 : h.cols = r)
    (mrows : (m.map Op.rows).sum = r) (mcols : (m.map Op.cols).sum = r) (hm : ∀ b ∈ m, ActsLike b.rows (den b) b) :
    ActsLike r (denBlock m) (.block h m) := by
  refine ⟨h1, h2, ?_, ?_⟩
  · rintro (_ | n)
    · exact Meets.fuel
    · rw [todense]
      refine Meets.bind (Meets.mapM (P := fun (b : Op) D => Eqv b.rows b.cols D (den b)) fun b hb => ?_) fun ms hms =>
        Meets.ok ?_
      · rw [(hm b hb).cols]
        exact (hm b hb).dense n
      · have := blockM_congr hms
        rwa [mrows, mcols] at this
  · rintro (_ | n) β k x
    · rw [matArr]; exact Meets.fuel
    · rw [matArr.eq_def]
      dsimp only
      rw [if_neg (fun e => e h2.symm), denBlock_eq]
      refine Meets.bind (Meets.mapM (P := fun p y => IsProd p.1.rows p.1.cols k (den p.1) p.2 y) fun p hp => ?_)
        fun ys hys => Meets.ok ?_
      · have h := hm p.1 (List.of_mem_zip hp).1
        rw [h.cols]
        exact h.mat n k p.2
      · have := isProd_block Op.rows Op.cols den hys
        rwa [mrows, mcols] at this

/-- What `T` of a factor returns: the transposed matrix, and the flags exchanged (the factor itself if it is marked
symmetric). -/
structure FTPost (r : ℕ) (c t : Op) : Prop where
  rows : t.rows = r
  cols : t.cols = r
  den : Eqv r r (den t) (trn (den c))
  acts : ActsLike r (Linops.den t) t
  same : c.fl.sym = some true → t = c
  swap : c.fl.sym ≠ some true → t.fl = c.fl.swap

/-- `c` is an operator for the `lower` Cholesky factor of the `r × r` matrix `M`: it has the right matrix, its
densification, products and transpose are right, and its flags say what it is. -/
structure CholRes (r : ℕ) (lower : Bool) (M : Mat) (c : Op) : Prop where
  rows : c.rows = r
  cols : c.cols = r
  own : own lower c.fl = some true
  oth : Linops.own (!lower) c.fl = none ∨ (Linops.own (!lower) c.fl = some true ∧ c.fl.sym = some true)
  sym : c.fl.sym ≠ some false
  pd : c.fl.pd ≠ some false
  pdsym : c.fl.pd = some true → c.fl.sym = some true
  symm : c.fl.sym = some true → IsSym r r (den c)
  factor : IsFactor r lower M (den c)
  acts : ActsLike r (den c) c
  tr : ∀ m, Meets (T m c) (FTPost r c)

theorem CholRes.coh {r : ℕ} {lower : Bool} {M : Mat} {c : Op} (h : CholRes r lower M c) : Coh c :=
  ⟨fun e => absurd (h.rows.trans h.cols.symm) e, h.pdsym⟩

theorem FTPost.sym_eq {r : ℕ} {c t : Op} (h : FTPost r c t) : t.fl.sym = c.fl.sym := by
  by_cases hs : c.fl.sym = some true
  · rw [h.same hs]
  · rw [h.swap hs]; rfl

theorem FTPost.pd_eq {r : ℕ} {c t : Op} (h : FTPost r c t) : t.fl.pd = c.fl.pd := by
  by_cases hs : c.fl.sym = some true
  · rw [h.same hs]
  · rw [h.swap hs]; rfl

theorem FTPost.coh {r : ℕ} {lower : Bool} {M : Mat} {c t : Op} (h : FTPost r c t) (hc : CholRes r lower M c) : Coh t :=
  ⟨fun e => absurd (h.rows.trans h.cols.symm) e, by rw [h.sym_eq, h.pd_eq]; exact hc.pdsym⟩

theorem tr_mk {r : ℕ} {c : Op} (hr : c.rows = r) (hc : c.cols = r) (hp : c.fl.pd = some true → c.fl.sym = some true)
    (hs : c.fl.sym = some true → IsSym r r (den c)) (ha : ActsLike r (den c) c)
    (h : c.fl.sym ≠ some true → ∀ m, Meets (transposeOf m (T m) c) fun t => t.rows = r ∧ t.cols = r ∧
      Eqv r r (den t) (trn (den c)) ∧ t.fl.Le c.fl.swap ∧ ∀ fl, ActsLike r (den t) (t.withFl fl)) : ∀ m, Meets (T m c) (FTPost r c)
  | 0 => Meets.fuel
  | m + 1 => by
    rw [T]
    by_cases e : c.fl.sym = some true
    · rw [if_pos e]
      exact Meets.ok ⟨hr, hc, (hs e).2.symm, ha, fun _ => rfl, fun h => absurd e h⟩
    · rw [if_neg e]
      refine Meets.bind (h e m) fun t ht => ?_
      rw [copyFlags_eq ht.2.2.2.1 (fun he => absurd he e) hp]
      refine Meets.ok ⟨by simp [ht.1], by simp [ht.2.1], by simpa using ht.2.2.1,
        by simpa using ht.2.2.2.2 c.fl.swap, fun he => absurd he e, fun _ => by simp⟩

/-! ## The different kinds of factors -/

theorem cholRes_identity {h : Hdr} {lower : Bool} (h1 : h.rows = h.cols)
    (hf : h.fl = ⟨some true, some true, some true, some true⟩) : CholRes h.rows lower eye (.identity h) := by
  have hfl : (Op.identity h).fl = ⟨some true, some true, some true, some true⟩ := hf
  have hd : den (.identity h) = eye := by rw [den]
  have hsy : IsSym h.rows h.rows (den (.identity h)) := by rw [hd]; exact ⟨rfl, Eqv.of_eq trn_eye⟩
  refine ⟨rfl, h1.symm, by rw [hfl]; cases lower <;> rfl, by rw [hfl]; exact .inr ⟨by cases lower <;> rfl, rfl⟩,
    by rw [hfl]; simp, by rw [hfl]; simp, by rw [hfl]; simp, fun _ => hsy, by rw [hd]; exact isFactor_eye _ _, ?_, ?_⟩
  · rw [hd]; exact acts_identity h1
  · exact tr_mk rfl h1.symm (by rw [hfl]; simp) (fun _ => hsy) (by rw [hd]; exact acts_identity h1) (fun e => absurd (by rw [hfl]) e)

theorem cholRes_scaling {h : Hdr} {iso lower : Bool} {M : Mat} {f : ℕ → ℝ} (h1 : h.rows = h.cols)
    (hs : h.fl.sym = some true) (hl : h.fl.low = some true) (hu : h.fl.up = some true) (hp : h.fl.pd ≠ some false)
    (hf : IsFactor h.rows lower M (fun i j => if i = j then f i else 0)) : CholRes h.rows lower M (.scaling h iso f) := by
  have hd : den (.scaling h iso f) = fun i j => if i = j then f i else 0 := by rw [den]
  have hsy : IsSym h.rows h.rows (den (.scaling h iso f)) := by
    rw [hd]
    refine ⟨rfl, fun i _ j _ => ?_⟩
    simp only [Linops.trn]
    by_cases hij : i = j
    · rw [if_pos hij, if_pos hij.symm, hij]
    · rw [if_neg hij, if_neg fun e => hij e.symm]
  have hs' : (Op.scaling h iso f).fl.sym = some true := hs
  refine ⟨rfl, h1.symm, by cases lower; exacts [hu, hl], .inr ⟨by cases lower; exacts [hl, hu], hs⟩,
    by rw [hs']; simp, hp, fun _ => hs, fun _ => hsy, by rw [hd]; exact hf, ?_, ?_⟩
  · rw [hd]; exact acts_scaling h1
  · exact tr_mk rfl h1.symm (fun _ => hs) (fun _ => hsy) (by rw [hd]; exact acts_scaling h1) (fun e => absurd hs e)

theorem cholRes_matrix {r : ℕ} {lower : Bool} {M L : Mat} (hf : IsFactor r lower M L) :
    CholRes r lower M (.matrix ⟨r, r, (Flags.setOwn lower ⟨none, none, none, none⟩)⟩ L) := by
  set c : Op := .matrix ⟨r, r, (Flags.setOwn lower ⟨none, none, none, none⟩)⟩ L with hcdef
  have hfl : c.fl = Flags.setOwn lower ⟨none, none, none, none⟩ := rfl
  have hd : den c = L := by rw [hcdef, den]
  refine ⟨rfl, rfl, by rw [hfl, own_setOwn], by rw [hfl, own_not_setOwn]; left; cases lower <;> rfl, by simp [hfl],
    by simp [hfl], by simp [hfl], by simp [hfl], by rw [hd]; exact hf, ?_, ?_⟩
  · rw [hd]; exact acts_matrix L rfl rfl
  · refine tr_mk rfl rfl (by simp [hfl]) (by simp [hfl]) (by rw [hd]; exact acts_matrix L rfl rfl) fun _ m => ?_
    refine Meets.ok (P := fun t : Op => t.rows = r ∧ t.cols = r ∧ Eqv r r (den t) (trn (den c)) ∧ t.fl.Le c.fl.swap ∧
      ∀ fl, ActsLike r (den t) (t.withFl fl)) ⟨rfl, rfl, ?_, ?_, fun fl => ?_⟩
    · rw [hd]
      simp only [mkMatrix, den]
      exact Eqv.refl _
    · have : (mkMatrix r r (trn L)).fl = ⟨none, none, none, none⟩ := by simp [mkMatrix, base, Op.fl, Op.hdr]
      show (mkMatrix r r (trn L)).fl.Le _
      rw [this]
      exact ⟨.inl rfl, .inl rfl, .inl rfl, .inl rfl⟩
    · rw [mkMatrix, den]
      exact acts_matrix (trn L) rfl rfl

theorem isSym_kron {a b : ℕ} {M N : Mat} (h : IsSym a a M) (h' : IsSym b b N) : IsSym (a * b) (a * b) (kronM b b M N) :=
  ⟨rfl, by rw [trn_kronM]; exact kronM_congr h.2 h'.2⟩

theorem cholRes_kron {a b : ℕ} {lower : Bool} {M N : Mat} {A B : Op} (hA : CholRes a lower M A)
    (hB : CholRes b lower N B) : CholRes (a * b) lower (kronM b b M N) (.kron ⟨a * b, a * b, Flags.setOwn lower
      ⟨if A.fl.sym = some true ∧ B.fl.sym = some true then some true else none, none, none, none⟩⟩ A B) := by
  set c : Op := .kron ⟨a * b, a * b, Flags.setOwn lower
      ⟨if A.fl.sym = some true ∧ B.fl.sym = some true then some true else none, none, none, none⟩⟩ A B with hcdef
  have hfl : c.fl = Flags.setOwn lower
      ⟨if A.fl.sym = some true ∧ B.fl.sym = some true then some true else none, none, none, none⟩ := rfl
  have hd : den c = kronM b b (den A) (den B) := by rw [hcdef, den, hB.rows, hB.cols]
  have hiff : c.fl.sym = some true → A.fl.sym = some true ∧ B.fl.sym = some true := by
    intro h
    by_contra hn
    rw [hfl, sym_setOwn, if_neg hn] at h
    cases h
  have hsy : c.fl.sym = some true → IsSym (a * b) (a * b) (den c) := by
    intro h
    rw [hd]
    exact isSym_kron (hA.symm (hiff h).1) (hB.symm (hiff h).2)
  have hacts : ActsLike (a * b) (den c) c := by
    rw [hd]
    exact acts_kron rfl rfl hA.acts hB.acts
  refine ⟨rfl, rfl, by rw [hfl, own_setOwn], by rw [hfl, own_not_setOwn]; left; cases lower <;> rfl, ?_,
    by simp [hfl], by simp [hfl], hsy, by rw [hd]; exact isFactor_kron hA.factor hB.factor, ?_, ?_⟩
  · rw [hfl, sym_setOwn]
    dsimp only
    split <;> simp
  · exact hacts
  · refine tr_mk rfl rfl (by simp [hfl]) hsy hacts fun hne m => ?_
    rw [hcdef, transposeOf, ← hcdef]
    refine Meets.bind (hA.tr m) fun A' hA' => Meets.bind (hB.tr m) fun B' hB' => ?_
    rw [mkKron_eq (hA'.coh hA) (hB'.coh hB) ⟨none, none, none, none⟩]
    have hn : ¬ (A'.fl.sym = some true ∧ B'.fl.sym = some true) := by
      rw [hA'.sym_eq, hB'.sym_eq]
      intro h
      exact hne (by rw [hfl, sym_setOwn, if_pos h])
    refine Meets.ok ⟨?_, ?_, ?_, ?_, fun fl => ?_⟩
    · simp only [build, rows_withFl]
      show A'.rows * B'.rows = a * b
      rw [hA'.rows, hB'.rows]
    · simp only [build, cols_withFl]
      show A'.cols * B'.cols = a * b
      rw [hA'.cols, hB'.cols]
    · rw [build, den_withFl, den, hd, trn_kronM, hB'.rows, hB'.cols]
      exact kronM_congr hA'.den hB'.den
    · rw [build, fl_withFl, derived, if_neg hn, hA'.rows, hA'.cols, hB'.rows, hB'.cols]
      have : (base (a * b) (a * b)).fl = ⟨none, none, none, none⟩ := by simp [base]
      rw [this]
      exact ⟨.inl rfl, .inl rfl, .inl rfl, .inl rfl⟩
    · rw [build, withFl_withFl, den_withFl, den, hB'.rows, hB'.cols, hA'.rows, hA'.cols]
      exact acts_kron rfl rfl hA'.acts hB'.acts

theorem cholRes_idkron {k b : ℕ} {lower : Bool} {N : Mat} {B : Op} (hB : CholRes b lower N B) :
    CholRes (k * b) lower (kronM b b eye N) (.idkron ⟨k * b, k * b, Flags.setOwn lower
      ⟨if B.fl.sym = some true then some true else none, none, none, none⟩⟩ k B) := by
  set c : Op := .idkron ⟨k * b, k * b, Flags.setOwn lower
      ⟨if B.fl.sym = some true then some true else none, none, none, none⟩⟩ k B with hcdef
  have hfl : c.fl = Flags.setOwn lower
      ⟨if B.fl.sym = some true then some true else none, none, none, none⟩ := rfl
  have hd : den c = kronM b b eye (den B) := by rw [hcdef, den, hB.rows, hB.cols]
  have hiff : c.fl.sym = some true → B.fl.sym = some true := by
    intro h
    by_contra hn
    rw [hfl, sym_setOwn, if_neg hn] at h
    cases h
  have hI : CholRes k lower eye (mkIdentity k) :=
    cholRes_identity (h := ⟨k, k, ⟨some true, some true, some true, some true⟩⟩) rfl rfl
  have hdI : den (mkIdentity k) = eye := by rw [mkIdentity, den]
  have hsy : c.fl.sym = some true → IsSym (k * b) (k * b) (den c) := by
    intro h
    rw [hd]
    exact isSym_kron ⟨rfl, Eqv.of_eq trn_eye⟩ (hB.symm (hiff h))
  have hacts : ActsLike (k * b) (den c) c := by
    rw [hd]
    exact acts_idkron rfl rfl hB.acts
  refine ⟨rfl, rfl, by rw [hfl, own_setOwn], by rw [hfl, own_not_setOwn]; left; cases lower <;> rfl, ?_,
    by simp [hfl], by simp [hfl], hsy, by rw [hd]; exact isFactor_kron (isFactor_eye _ _) hB.factor, ?_, ?_⟩
  · rw [hfl, sym_setOwn]
    dsimp only
    split <;> simp
  · exact hacts
  · refine tr_mk rfl rfl (by simp [hfl]) hsy hacts fun hne m => ?_
    rw [hcdef, transposeOf, ← hcdef]
    refine Meets.bind (hB.tr m) fun B' hB' => ?_
    rw [mkIdkron_eq (hB'.coh hB) ⟨none, none, none, none⟩]
    have hn : ¬ (B'.fl.sym = some true) := by
      rw [hB'.sym_eq]
      intro h
      exact hne (by rw [hfl, sym_setOwn, if_pos h])
    refine Meets.ok ⟨?_, ?_, ?_, ?_, fun fl => ?_⟩
    · simp only [build, rows_withFl]
      show k * B'.rows = k * b
      rw [hB'.rows]
    · simp only [build, cols_withFl]
      show k * B'.cols = k * b
      rw [hB'.cols]
    · rw [build, den_withFl, den, hd, trn_kronM, hB'.rows, hB'.cols, trn_eye]
      exact kronM_congr (r₁ := k) (c₁ := k) (Eqv.refl _) hB'.den
    · rw [build, fl_withFl, derived, if_neg hn, hB'.rows, hB'.cols]
      have : (base (k * b) (k * b)).fl = ⟨none, none, none, none⟩ := by simp [base]
      rw [this]
      exact ⟨.inl rfl, .inl rfl, .inl rfl, .inl rfl⟩
    · rw [build, withFl_withFl, den_withFl, den, hB'.rows, hB'.cols]
      exact acts_idkron rfl rfl hB'.acts

theorem cholRes_symkron {a : ℕ} {lower : Bool} {M : Mat} {A : Op} (hA : CholRes a lower M A) :
    CholRes (a * a) lower (kronM a a M M) (.symkron ⟨a * a, a * a, Flags.setOwn lower
      ⟨if A.fl.sym = some true then some true else none, none, none, none⟩⟩ true A A) := by
  set c : Op := .symkron ⟨a * a, a * a, Flags.setOwn lower
      ⟨if A.fl.sym = some true then some true else none, none, none, none⟩⟩ true A A with hcdef
  have hfl : c.fl = Flags.setOwn lower
      ⟨if A.fl.sym = some true then some true else none, none, none, none⟩ := rfl
  have hd : den c = kronM a a (den A) (den A) := by
    rw [hcdef, den_symkron_same, hA.rows, hA.cols]
  have hiff : c.fl.sym = some true → A.fl.sym = some true := by
    intro h
    by_contra hn
    rw [hfl, sym_setOwn, if_neg hn] at h
    cases h
  have hsy : c.fl.sym = some true → IsSym (a * a) (a * a) (den c) := by
    intro h
    rw [hd]
    exact isSym_kron (hA.symm (hiff h)) (hA.symm (hiff h))
  have hacts : ActsLike (a * a) (den c) c := by
    rw [hd]
    exact acts_symkron rfl rfl hA.acts
  refine ⟨rfl, rfl, by rw [hfl, own_setOwn], by rw [hfl, own_not_setOwn]; left; cases lower <;> rfl, ?_,
    by simp [hfl], by simp [hfl], hsy, by rw [hd]; exact isFactor_kron hA.factor hA.factor, ?_, ?_⟩
  · rw [hfl, sym_setOwn]
    dsimp only
    split <;> simp
  · exact hacts
  · refine tr_mk rfl rfl (by simp [hfl]) hsy hacts fun hne m => ?_
    rw [hcdef, transposeOf, ← hcdef]
    refine Meets.bind (hA.tr m) fun A' hA' => ?_
    rw [if_pos rfl, mkSymkron_eq (hA'.rows.trans hA'.cols.symm) rfl rfl ⟨none, none, none, none⟩]
    have hn : ¬ (A'.fl.sym = some true ∧ A'.fl.sym = some true) := by
      rw [hA'.sym_eq, and_self]
      intro h
      exact hne (by rw [hfl, sym_setOwn, if_pos h])
    refine Meets.ok ⟨?_, ?_, ?_, ?_, fun fl => ?_⟩
    · simp only [build, rows_withFl]
      show A'.rows * A'.rows = a * a
      rw [hA'.rows]
    · simp only [build, cols_withFl]
      show A'.rows * A'.rows = a * a
      rw [hA'.rows]
    · rw [build, den_withFl, den_symkron_same, hd, trn_kronM, hA'.rows, hA'.cols]
      exact kronM_congr hA'.den hA'.den
    · rw [build, fl_withFl, derived, if_neg hn, hA'.rows]
      have : (base (a * a) (a * a)).fl = ⟨none, none, none, none⟩ := by simp [base]
      rw [this]
      exact ⟨.inl rfl, .inl rfl, .inl rfl, .inl rfl⟩
    · rw [build, withFl_withFl, den_withFl, den_symkron_same, hA'.rows, hA'.cols]
      exact acts_symkron rfl rfl hA'.acts

theorem forall₂_right {α γ : Type _} {R : α → γ → Prop} {l : List α} {m : List γ} (h : List.Forall₂ R l m) :
    ∀ c ∈ m, ∃ a ∈ l, R a c := by
  induction h with
  | nil => simp
  | cons h _ ih =>
    intro c hc
    rcases List.mem_cons.1 hc with rfl | hc
    · exact ⟨_, by simp, h⟩
    · obtain ⟨a, ha, h⟩ := ih c hc
      exact ⟨a, List.mem_cons_of_mem _ ha, h⟩

theorem forall₂_left {α γ : Type _} {R : α → γ → Prop} {l : List α} {m : List γ} (h : List.Forall₂ R l m) :
    ∀ a ∈ l, ∃ c ∈ m, R a c := by
  induction h with
  | nil => simp
  | cons h _ ih =>
    intro c hc
    rcases List.mem_cons.1 hc with rfl | hc
    · exact ⟨_, by simp, h⟩
    · obtain ⟨a, ha, h⟩ := ih c hc
      exact ⟨a, List.mem_cons_of_mem _ ha, h⟩

theorem forall₂_sum {l m : List Op} {f g : Op → ℕ} (h : List.Forall₂ (fun a b => f a = g b) l m) :
    (l.map f).sum = (m.map g).sum := by
  induction h with
  | nil => rfl
  | cons h _ ih => simp only [List.map_cons, List.sum_cons, h, ih]

theorem infer_ne_false {p : Op → Option Bool} {l : List Op} (h : ∀ b ∈ l, p b ≠ some false) :
    inferProp p l ≠ some false := fun e => by
  obtain ⟨b, hb, hf⟩ := inferProp_false e
  exact h b hb hf

theorem infer_eq_none {p : Op → Option Bool} {l : List Op} (h : ∀ b ∈ l, p b ≠ some false)
    (h' : ∃ b ∈ l, p b ≠ some true) : inferProp p l = none := by
  rcases e : inferProp p l with _ | _ | _
  · rfl
  · exact absurd e (infer_ne_false h)
  · obtain ⟨b, hb, hn⟩ := h'
    exact absurd (inferProp_true.1 e b hb) hn

theorem own_block (lower : Bool) (h : Hdr) (l : List Op) :
    own lower (derived (.block h l)) = inferProp (fun b => own lower b.fl) l := by cases lower <;> rfl

theorem oth_ne_false {r : ℕ} {lower : Bool} {M : Mat} {c : Op} (h : CholRes r lower M c) :
    own (!lower) c.fl ≠ some false := by
  rcases h.oth with e | e
  · rw [e]; simp
  · rw [e.1]; simp

theorem cholRes_block {lower : Bool} {l m : List Op} (h0 : Hdr) (hne : m ≠ [])
    (h : List.Forall₂ (fun a c : Op => a.rows = a.cols ∧ CholRes a.rows lower (den a) c) l m) :
    CholRes (l.map Op.rows).sum lower (denBlock l) (.block ⟨(l.map Op.rows).sum, (l.map Op.rows).sum,
      (derived (.block h0 m)).setOwn lower⟩ m) := by
  set r := (l.map Op.rows).sum with hr
  set c : Op := .block ⟨r, r, (derived (.block h0 m)).setOwn lower⟩ m with hcdef
  have hfl : c.fl = (derived (.block h0 m)).setOwn lower := rfl
  have hd : den c = denBlock m := by rw [hcdef, den]
  have hm : ∀ b ∈ m, ∃ a ∈ l, a.rows = a.cols ∧ CholRes a.rows lower (den a) b := forall₂_right h
  have hsm : c.fl.sym = inferProp (fun b => b.fl.sym) m := by rw [hfl, sym_setOwn]; rfl
  have hpm : c.fl.pd = inferProp (fun b => b.fl.pd) m := by rw [hfl, pd_setOwn]; rfl
  have mrows : (m.map Op.rows).sum = r :=
    (forall₂_sum (h.imp fun a b h => (h.2.rows.symm : a.rows = b.rows))).symm
  have mcols : (m.map Op.cols).sum = r :=
    (forall₂_sum (h.imp fun a b h => (h.2.cols.symm : a.rows = b.cols))).symm
  have hsy : c.fl.sym = some true → IsSym r r (den c) := by
    intro e
    rw [hsm, inferProp_true] at e
    refine ⟨rfl, ?_⟩
    rw [hd]
    have := (isSym_block (l := m) (fun b hb => ?_)).2 (fun b hb => ?_)
    · have h2 := this.2
      rwa [show dimB m = r from mrows] at h2
    · obtain ⟨a, _, _, hb'⟩ := hm b hb
      rw [hb'.rows, hb'.cols]
    · obtain ⟨a, _, _, hb'⟩ := hm b hb
      rw [hb'.rows, hb'.cols]
      exact hb'.symm (e b hb)
  have hpd : c.fl.pd = some true → c.fl.sym = some true := by
    rw [hsm, hpm, inferProp_true, inferProp_true]
    intro e b hb
    obtain ⟨a, _, _, hb'⟩ := hm b hb
    exact hb'.pdsym (e b hb)
  have hns : inferProp (fun b => b.fl.sym) m ≠ some false :=
    infer_ne_false fun b hb => by obtain ⟨a, _, _, hb'⟩ := hm b hb; exact hb'.sym
  have hnp : inferProp (fun b => b.fl.pd) m ≠ some false :=
    infer_ne_false fun b hb => by obtain ⟨a, _, _, hb'⟩ := hm b hb; exact hb'.pd
  have hacts : ActsLike r (den c) c := by
    rw [hd]
    exact acts_block rfl rfl mrows mcols fun b hb => by
      obtain ⟨a, _, _, hb'⟩ := hm b hb
      rw [hb'.rows]
      exact hb'.acts
  refine ⟨rfl, rfl, by rw [hfl, own_setOwn], ?_, by rw [hsm]; exact hns, by rw [hpm]; exact hnp, hpd, hsy, ?_, ?_, ?_⟩
  · rw [hfl, own_not_setOwn, own_block]
    rcases e : inferProp (fun b => Linops.own (!lower) b.fl) m with _ | _ | _
    · exact .inl rfl
    · refine absurd e (infer_ne_false fun b hb => ?_)
      obtain ⟨a, _, _, hb'⟩ := hm b hb
      exact oth_ne_false hb'
    · refine .inr ⟨rfl, ?_⟩
      rw [← hfl, hsm, inferProp_true]
      intro b hb
      obtain ⟨a, _, _, hb'⟩ := hm b hb
      rcases hb'.oth with e' | e'
      · rw [inferProp_true.1 e b hb] at e'
        cases e'
      · exact e'.2
  · rw [hd]
    exact isFactor_block (h.imp fun a b h => ⟨h.1, h.2.rows, h.2.cols, h.2.factor⟩)
  · exact hacts
  · refine tr_mk rfl rfl hpd hsy hacts fun hns' n => ?_
    rw [hcdef, transposeOf, ← hcdef]
    have hno : ∃ b ∈ m, b.fl.sym ≠ some true := by
      by_contra hall
      push Not at hall
      exact hns' (by rw [hsm, inferProp_true]; exact hall)
    refine Meets.bind (Meets.mapM (P := fun b t => FTPost b.rows b t) fun b hb => ?_) fun q hq => ?_
    · obtain ⟨a, _, _, hb'⟩ := hm b hb
      rw [hb'.rows]
      exact hb'.tr n
    have hq' : ∀ t ∈ q, ∃ b ∈ m, FTPost b.rows b t ∧ ∃ a ∈ l, CholRes a.rows lower (den a) b := by
      intro t ht
      obtain ⟨b, hb, e⟩ := forall₂_right hq t ht
      obtain ⟨a, ha, _, hb'⟩ := hm b hb
      exact ⟨b, hb, e, a, ha, hb'⟩
    have hqne : q ≠ [] := by
      rintro rfl
      cases hq
      exact hne rfl
    rw [mkBlock_eq hqne (fun t ht => by
      obtain ⟨b, hb, e, a, _, hb'⟩ := hq' t ht
      rw [hb'.rows] at e
      exact e.coh hb') ⟨none, none, none, none⟩]
    have qrows : (q.map Op.rows).sum = r := by
      rw [← mrows]
      exact (forall₂_sum (hq.imp fun a b h => (h.rows.symm : a.rows = b.rows))).symm
    have qcols : (q.map Op.cols).sum = r := by
      rw [← mrows]
      exact (forall₂_sum (hq.imp fun a b h => (h.cols.symm : a.rows = b.cols))).symm
    refine Meets.ok ⟨?_, ?_, ?_, ?_, fun fl => ?_⟩
    · simp only [build, rows_withFl]
      exact qrows
    · simp only [build, cols_withFl]
      exact qcols
    · rw [build, den_withFl, den, hd]
      have := trn_denBlock (l := m) (m := q) ?_
      · rwa [mrows, mcols] at this
      · have h3 : ∀ b ∈ m, b.cols = b.rows := fun b hb => by
          obtain ⟨a, _, _, hb'⟩ := hm b hb
          rw [hb'.rows, hb'.cols]
        clear_value c
        clear * - hq h3
        induction hq with
        | nil => exact .nil
        | @cons b t m q e _ ih =>
          have e3 := h3 b (by simp)
          refine .cons ⟨e.rows.trans e3.symm, e.cols, ?_⟩ (ih fun b hb => h3 b (List.mem_cons_of_mem _ hb))
          rw [e3]
          exact e.den
    · rw [build, fl_withFl]
      obtain ⟨b0, hb0, hb0s⟩ := hno
      obtain ⟨t0, ht0, e0⟩ := forall₂_left hq b0 hb0
      obtain ⟨a0, _, _, hb0'⟩ := hm b0 hb0
      refine le_swap (lower := lower) (.inl ?_) ?_ ?_ (by rw [hfl, own_setOwn]) (.inl ?_)
      · refine infer_eq_none (fun t ht => ?_) ⟨t0, ht0, by rw [e0.sym_eq]; exact hb0s⟩
        obtain ⟨b, hb, e, a, _, hb'⟩ := hq' t ht
        rw [e.sym_eq]
        exact hb'.sym
      · rw [own_block]
        refine infer_eq_none (fun t ht => ?_) ⟨t0, ht0, ?_⟩
        · obtain ⟨b, hb, e, a, _, hb'⟩ := hq' t ht
          by_cases hs : b.fl.sym = some true
          · rw [e.same hs, hb'.own]; simp
          · rw [e.swap hs, own_swap]; exact oth_ne_false hb'
        · rw [e0.swap hb0s, own_swap]
          rcases hb0'.oth with e' | e'
          · rw [e']; simp
          · exact absurd e'.2 hb0s
      · rw [own_block]
        have : inferProp (fun b => own (!lower) b.fl) q ≠ some false := infer_ne_false fun t ht => by
          obtain ⟨b, hb, e, a, _, hb'⟩ := hq' t ht
          by_cases hs : b.fl.sym = some true
          · rw [e.same hs]; exact oth_ne_false hb'
          · rw [e.swap hs, own_swap, Bool.not_not, hb'.own]; simp
        rcases e : inferProp (fun b => own (!lower) b.fl) q with _ | _ | _
        · exact .inl rfl
        · exact absurd e this
        · exact .inr rfl
      · refine infer_eq_none (fun t ht => ?_) ⟨t0, ht0, ?_⟩
        · obtain ⟨b, hb, e, a, _, hb'⟩ := hq' t ht
          rw [e.pd_eq]
          exact hb'.pd
        · rw [e0.pd_eq]
          exact fun h => hb0s (hb0'.pdsym h)
    · rw [build, withFl_withFl, den_withFl, den]
      exact acts_block qrows qcols qrows qcols fun t ht => by
        obtain ⟨b, hb, e, a, _, hb'⟩ := hq' t ht
        rw [e.rows]
        exact e.acts

/-! ## Dense factorisations -/

theorem isChol_iff {n : ℕ} {lower : Bool} {D M L : Mat} (hD : Eqv n n D M) (hsym : IsSym n n M) :
    IsChol n lower D L ↔ IsFactor n lower M L := by
  constructor
  · rintro ⟨h1, h2, h3⟩
    refine ⟨?_, h2, ?_⟩
    · cases lower
      · exact fun i hi j hj hij => h1 i hi j hj (by simpa using hij)
      · exact fun i hi j hj hij => h1 i hi j hj (by simpa using hij)
    · have key : ∀ G : Mat, Eqv n n (Linops.trn G) G → (∀ i < n, ∀ j < n, (if lower then j ≤ i else i ≤ j) →
          G i j = D i j) → Eqv n n G M := by
        intro G hG hGD i hi j hj
        have hs : ∀ i < n, ∀ j < n, M j i = M i j := fun i hi j hj => hsym.2 i hi j hj
        cases lower
        · rcases Nat.le_total i j with hij | hij
          · rw [hGD i hi j hj (by simpa using hij), hD i hi j hj]
          · rw [← hG i hi j hj]
            show G j i = _
            rw [hGD j hj i hi (by simpa using hij), hD j hj i hi, hs i hi j hj]
        · rcases Nat.le_total j i with hij | hij
          · rw [hGD i hi j hj (by simpa using hij), hD i hi j hj]
          · rw [← hG i hi j hj]
            show G j i = _
            rw [hGD j hj i hi (by simpa using hij), hD j hj i hi, hs i hi j hj]
      refine key _ ?_ h3
      cases lower
      · simp only [Bool.false_eq_true, if_false]
        rw [trn_mmul, trn_trn]
        exact Eqv.refl _
      · simp only [if_true]
        rw [trn_mmul, trn_trn]
        exact Eqv.refl _
  · intro h
    refine ⟨?_, h.diag, fun i hi j hj _ => (h.gram i hi j hj).trans (hD i hi j hj).symm⟩
    cases lower
    · exact fun i hi j hj hij => h.tri i hi j hj (by simpa using hij)
    · exact fun i hi j hj hij => h.tri i hi j hj (by simpa using hij)

/-- Every positive definite matrix has a Cholesky factor. -/
theorem exists_factor {n : ℕ} (lower : Bool) {M : Mat} (h : IsPd n n M) : ∃ L, IsFactor n lower M L := by
  obtain ⟨L, h1, h2, h3⟩ := Quad.exists_cholesky h.2
  have low : IsFactor n true M (ofM L) := by
    refine ⟨?_, ?_, ?_⟩
    · intro i hi j hj hij
      simp only [ofM, hi, hj, dif_pos]
      exact h1 _ _ hij
    · intro i hi
      simp only [ofM, hi, dif_pos]
      exact h2 _
    · simp only [if_true]
      rw [eqv_iff_toM, toM_mmul, toM_trn, toM_ofM]
      exact h3
  cases lower
  · exact ⟨_, low.trn⟩
  · exact ⟨_, low⟩

theorem exists_factor_iff {n : ℕ} (lower : Bool) {M : Mat} : (∃ L, IsFactor n lower M L) ↔ IsPd n n M :=
  ⟨fun ⟨_, h⟩ => h.isPd, exists_factor lower⟩

/-! ## Positive definite Kronecker products -/

theorem isPd_of_smul {n : ℕ} {s : ℝ} {M : Mat} (hs : 0 < s) (h : IsPd n n (s • M)) : IsPd n n M := by
  refine ⟨rfl, ?_⟩
  have := h.2.smul (inv_pos.2 hs)
  have e : toM n n M = s⁻¹ • toM n n (s • M) := by
    ext i j
    simp [toM, hs.ne']
  rw [e]
  exact this

theorem isPd_kron_left {a b : ℕ} {M N : Mat} (hb : 0 < b) (h : IsPd (a * b) (a * b) (kronM b b M N)) :
    IsPd a a (N 0 0 • M) := by
  refine ⟨rfl, ?_⟩
  have hlt : ∀ i : Fin a, (i : ℕ) * b < a * b := fun i => Nat.mul_lt_mul_of_pos_right i.2 hb
  let e : Fin a → Fin (a * b) := fun i => ⟨i * b, hlt i⟩
  have he : Function.Injective e := fun i j hij => Fin.ext (Nat.eq_of_mul_eq_mul_right hb (Fin.mk.inj hij))
  have := h.2.submatrix he
  convert this using 1
  ext i j
  simp [toM, e, kronM, Nat.mul_div_cancel _ hb, mul_comm (N 0 0)]

theorem isPd_kron_right {a b : ℕ} {M N : Mat} (ha : 0 < a) (h : IsPd (a * b) (a * b) (kronM b b M N)) :
    IsPd b b (M 0 0 • N) := by
  refine ⟨rfl, ?_⟩
  have hlt : ∀ i : Fin b, (i : ℕ) < a * b := fun i => lt_of_lt_of_le i.2 (Nat.le_mul_of_pos_left b ha)
  let e : Fin b → Fin (a * b) := fun i => ⟨i, hlt i⟩
  have he : Function.Injective e := fun i j hij => Fin.ext (Fin.mk.inj hij)
  have := h.2.submatrix he
  convert this using 1
  ext i j
  simp [toM, e, kronM, Nat.div_eq_of_lt i.2, Nat.div_eq_of_lt j.2, Nat.mod_eq_of_lt i.2, Nat.mod_eq_of_lt j.2]

/-- A Kronecker product whose first factor is not negative definite is positive definite exactly if both factors
are. -/
theorem isPd_kron {a b : ℕ} {M N : Mat} (ha : 0 < a) (hb : 0 < b) (hn : ¬ IsPd a a (-M)) :
    IsPd (a * b) (a * b) (kronM b b M N) ↔ IsPd a a M ∧ IsPd b b N := by
  constructor
  · intro h
    have h1 := isPd_kron_left hb h
    have h2 := isPd_kron_right ha h
    have d := IsPd.diag_pos h1 (i := 0) ha
    have d : 0 < N 0 0 * M 0 0 := d
    rcases lt_trichotomy 0 (N 0 0) with hN | hN | hN
    · exact ⟨isPd_of_smul hN h1, isPd_of_smul (pos_of_mul_pos_right d hN.le) h2⟩
    · rw [← hN, zero_mul] at d
      exact absurd d (lt_irrefl _)
    · refine absurd (isPd_of_smul (s := - N 0 0) (by linarith) ?_) hn
      have e : -N 0 0 • -M = N 0 0 • M := by rw [neg_smul, smul_neg, neg_neg]
      rwa [e]
  · rintro ⟨h1, h2⟩
    obtain ⟨L, hL⟩ := exists_factor true h1
    obtain ⟨K, hK⟩ := exists_factor true h2
    exact (isFactor_kron hL hK).isPd

theorem isPd_idkron {k b : ℕ} {N : Mat} (hk : 0 < k) (hb : 0 < b) :
    IsPd (k * b) (k * b) (kronM b b eye N) ↔ IsPd b b N := by
  rw [isPd_kron hk hb]
  · exact and_iff_right (isFactor_eye k true).isPd
  · intro h
    have := IsPd.diag_pos h (i := 0) hk
    have : 0 < -(eye 0 0) := this
    simp [eye] at this
    linarith

end Probnum.Linops
