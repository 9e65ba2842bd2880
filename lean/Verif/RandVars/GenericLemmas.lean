import Verif.RandVars.GenericSpec
import Verif.RandVars.IndexLemmas
import Verif.RandVars.ArithLemmas
import Mathlib.Probability.ProductMeasure

/-! # Lemmas on generic random variables -/

namespace Probnum.RandVars

open MeasureTheory ProbabilityTheory

variable {Ω : Type*} {mΩ : MeasurableSpace Ω} {P : Measure Ω} {ρ : Type} {mρ : MeasurableSpace ρ} {Q : Measure ρ}

theorem checkShape_ok {s : List ℕ} {a b : Arr} (h : checkShape s a = .ok b) : b = a ∧ a.shape = s := by
  unfold checkShape at h
  split at h
  · exact ⟨(Except.ok.inj h).symm, by assumption⟩
  · cases h

theorem checkShape_eq {s : List ℕ} {a : Arr} (h : a.shape = s) : checkShape s a = .ok a := if_pos h

theorem property_ok {v : Option (Res Arr)} {s : List ℕ} {a : Arr} (h : property v s = .ok a) : v = some (.ok a) ∧ a.shape = s := by
  cases v with
  | none => cases h
  | some r =>
    obtain ⟨b, h1, h2⟩ := bind_ok (show r.bind (checkShape s) = .ok a from h)
    obtain ⟨rfl, h3⟩ := checkShape_ok h2
    rw [h1]
    exact ⟨rfl, h3⟩

theorem Generic.varP_shape {g : Generic ρ} {v : Arr} (h : g.varP = .ok v) : v.shape = g.shape := by
  unfold Generic.varP at h
  split at h
  · obtain ⟨C, _, h⟩ := bind_ok h
    split at h
    · obtain ⟨b, _, h⟩ := bind_ok h
      obtain ⟨rfl, h⟩ := checkShape_ok h
      exact h
    · cases h
  · obtain ⟨b, _, h⟩ := bind_ok h
    obtain ⟨rfl, h⟩ := checkShape_ok h
    exact h

theorem Generic.stdP_shape {g : Generic ρ} {v : Arr} (h : g.stdP = .ok v) : v.shape = g.shape := by
  unfold Generic.stdP at h
  split at h
  · obtain ⟨b, _, h⟩ := bind_ok h
    obtain ⟨h1, h2⟩ := checkShape_ok h
    rw [h1]
    exact h2
  · obtain ⟨b, _, h⟩ := bind_ok h
    obtain ⟨rfl, h⟩ := checkShape_ok h
    exact h

theorem Generic.meanP_shape {g : Generic ρ} {v : Arr} (h : g.meanP = .ok v) : v.shape = g.shape := (property_ok h).2

/-! ## Operations that select entries -/

/-- A random variable all of whose properties come from selecting entries. -/
structure Selected (f : Arr → Res Arr) (g h : Generic ρ) (σ : ℕ → ℕ) : Prop where
  op : SelectOp f g.shape h.shape σ 1 (fun _ => 0)
  mean : h.mean = some (g.meanP.bind f)
  var : h.var = some (g.varP.bind f)
  std : h.std = some (g.stdP.bind f)

theorem Selected.describes {f : Arr → Res Arr} {g h : Generic ρ} {σ : ℕ → ℕ} (H : Selected f g h σ) {X : Ω → Arr}
    (hX : Describes P X g) :
    ∃ Y : Ω → Arr, (∀ ω, f (X ω) = .ok (Y ω)) ∧ Describes P Y h ∧
      ((∃ m, g.meanP = .ok m) → ∃ m, h.meanP = .ok m) ∧ ((∃ m, g.varP = .ok m) → ∃ m, h.varP = .ok m) ∧
      ((∃ m, g.stdP = .ok m) → ∃ m, h.stdP = .ok m) := by
  choose Y h1 h2 h3 using fun ω => H.op (X ω) (hX.shape ω)
  have hsel : ∀ {a b : Arr}, a.shape = g.shape → f a = .ok b → b.shape = h.shape ∧ ∀ i < h.shape.prod, σ i < g.shape.prod ∧
      b.flat i = a.flat (σ i) := fun {a b} ha hb => by
    obtain ⟨y, e1, e2, e3⟩ := H.op a ha
    obtain rfl : y = b := Except.ok.inj (e1.symm.trans hb)
    exact ⟨e2, fun i hi => ⟨(e3 i hi).1, by rw [(e3 i hi).2, one_mul, add_zero]⟩⟩
  have hY : ∀ i < h.shape.prod, σ i < g.shape.prod ∧ (fun ω => (Y ω).flat i) = fun ω => (X ω).flat (σ i) := fun i hi => by
    obtain ⟨y, _, _, e3⟩ := H.op ⟨g.shape, fun _ => 0⟩ rfl
    exact ⟨(e3 i hi).1, funext fun ω => by rw [(h3 ω i hi).2, one_mul, add_zero]⟩
  refine ⟨Y, h1, ⟨h2, fun m hm => ?_, fun v hv => ?_, fun s hs => ?_⟩, ?_, ?_, ?_⟩
  · obtain ⟨e1, e2⟩ := property_ok hm
    rw [H.mean] at e1
    obtain ⟨a, ha, hb⟩ := bind_ok (Option.some.inj e1)
    obtain ⟨_, q⟩ := hX.mean a ha
    obtain ⟨p', q'⟩ := hsel (Generic.meanP_shape ha) hb
    refine ⟨p', fun i hi => ?_⟩
    rw [(q' i hi).2, ← q _ (q' i hi).1, (hY i hi).2]
  · have hv' := hv
    unfold Generic.varP at hv
    rw [H.var] at hv
    obtain ⟨b, hb, hc⟩ := bind_ok hv
    obtain ⟨rfl, _⟩ := checkShape_ok hc
    obtain ⟨a, ha, hb⟩ := bind_ok hb
    obtain ⟨_, q⟩ := hX.var a ha
    obtain ⟨p', q'⟩ := hsel (Generic.varP_shape ha) hb
    refine ⟨p', fun i hi => ?_⟩
    rw [(q' i hi).2, ← q _ (q' i hi).1, (hY i hi).2]
  · unfold Generic.stdP at hs
    rw [H.std] at hs
    obtain ⟨b, hb, hc⟩ := bind_ok hs
    obtain ⟨rfl, _⟩ := checkShape_ok hc
    obtain ⟨a, ha, hb⟩ := bind_ok hb
    obtain ⟨_, q⟩ := hX.std a ha
    obtain ⟨p', q'⟩ := hsel (Generic.stdP_shape ha) hb
    refine ⟨p', fun i hi => ?_⟩
    rw [(q' i hi).2, ← q _ (q' i hi).1, (hY i hi).2]
  · rintro ⟨m, hm⟩
    obtain ⟨y, e1, e2, _⟩ := H.op m (Generic.meanP_shape hm)
    refine ⟨y, ?_⟩
    rw [Generic.meanP, H.mean, hm]
    show (f m).bind _ = _
    rw [e1]
    exact checkShape_eq e2
  · rintro ⟨m, hm⟩
    obtain ⟨y, e1, e2, _⟩ := H.op m (Generic.varP_shape hm)
    refine ⟨y, ?_⟩
    rw [Generic.varP, H.var, hm]
    show (f m).bind _ = _
    rw [e1]
    exact checkShape_eq e2
  · rintro ⟨m, hm⟩
    obtain ⟨y, e1, e2, _⟩ := H.op m (Generic.stdP_shape hm)
    refine ⟨y, ?_⟩
    rw [Generic.stdP, H.std, hm]
    show (f m).bind _ = _
    rw [e1]
    exact checkShape_eq e2

/-- Indexing with at most as many entries as axes selects entries. -/
theorem index_select_any {key : List KeyEl} {s : List ℕ} {e : Arr} (he : (⟨s, fun _ => 0⟩ : Arr).index key = .ok e) :
    ∃ σ, SelectOp (fun x => x.index key) s e.shape σ 1 (fun _ => 0) := by
  unfold Arr.index at he
  split at he
  swap
  · cases he
  rename_i hl
  obtain ⟨g, hg, rfl⟩ := map_ok he
  have hl' : key.length ≤ s.length := hl
  have htl : key.length = (s.take key.length).length := by rw [List.length_take]; omega
  let sh := g.shape ++ s.drop key.length
  refine ⟨fun j => ravel s (g.src ((unravel sh j).take g.shape.length) ++ (unravel sh j).drop g.shape.length), fun x hx => ?_⟩
  refine ⟨x.gatherFirst g key.length, ?_, ?_, fun i hi => ?_⟩
  · show x.index key = _
    rw [Arr.index, if_pos (by rw [Arr.ndim, hx]; exact hl'), hx, hg]
    rfl
  · show g.shape ++ x.shape.drop _ = _
    rw [hx]
    rfl
  · have hv : Valid sh (unravel sh i) := unravel_valid hi
    have hv1 : Valid g.shape ((unravel sh i).take g.shape.length) := by
      have := List.forall₂_take g.shape.length hv
      rwa [List.take_left] at this
    have hv2 : Valid (s.drop key.length) ((unravel sh i).drop g.shape.length) := by
      have := List.forall₂_drop g.shape.length hv
      rwa [List.drop_left] at this
    have hv3 : Valid s (g.src ((unravel sh i).take g.shape.length) ++ (unravel sh i).drop g.shape.length) := by
      have := (gather_valid htl hg hv1).append hv2
      rwa [List.take_append_drop] at this
    refine ⟨ravel_lt hv3, ?_⟩
    rw [one_mul, add_zero, ← hx, ← Arr.get_flat (by rw [hx]; exact hv3)]
    show (x.gatherFirst g key.length).get (unravel (x.gatherFirst g key.length).shape i) = _
    have : (x.gatherFirst g key.length).shape = sh := by
      show g.shape ++ x.shape.drop _ = _
      rw [hx]
    rw [this]
    rfl

/-- Transposing selects entries. -/
theorem transpose_select_any {axes : Option (List ℤ)} {s : List ℕ} {e : Arr}
    (he : Generic.transposeArr axes (⟨s, fun _ => 0⟩ : Arr) = .ok e) :
    ∃ σ, SelectOp (Generic.transposeArr axes) s e.shape σ 1 (fun _ => 0) := by
  unfold Generic.transposeArr Arr.transpose at he
  split at he
  · cases he
  · rename_i l hl
    unfold Arr.permute at he
    split at he
    swap
    · cases he
    rename_i hp
    have hes : e.shape = l.map fun d => s.getD d 0 := by
      rw [← Except.ok.inj he]
    have := transpose_select (s := s) (ax := resolveAxes s.length axes) hl hp
    refine ⟨fun k => ravel s (scatter s.length l (unravel (l.map fun d => s.getD d 0) k)), fun x hx => ?_⟩
    obtain ⟨y, h1, h2, h3⟩ := this x hx
    refine ⟨y, ?_, h2.trans hes.symm, ?_⟩
    · rw [Generic.transposeArr, Arr.ndim, hx]
      exact h1
    · rw [hes]
      exact h3

/-! ## Samples -/

theorem aemeasurable_draws {n : ℕ} {μ : Measure (Fin n → ℝ)} [IsProbabilityMeasure μ] [IsProbabilityMeasure Q] {k : ℕ}
    {B : ρ → Fin k → Fin n → ℝ} {T : ρ → ρ} (h : Q.map (fun r => (B r, T r)) = (Measure.pi fun _ => μ).prod Q) :
    AEMeasurable (fun r => (B r, T r)) Q := by
  refine AEMeasurable.of_map_ne_zero ?_
  rw [h]
  exact IsProbabilityMeasure.ne_zero _

/-- A measurable function of every draw. -/
theorem draws_map {n m : ℕ} {μ : Measure (Fin n → ℝ)} [IsProbabilityMeasure μ] [IsProbabilityMeasure Q] {k : ℕ}
    {B : ρ → Fin k → Fin n → ℝ} {T : ρ → ρ} (h : Q.map (fun r => (B r, T r)) = (Measure.pi fun _ => μ).prod Q)
    {φ : (Fin n → ℝ) → Fin m → ℝ} (hφ : Measurable φ) :
    Q.map (fun r => (fun c => φ (B r c), T r)) = (Measure.pi fun _ => μ.map φ).prod Q := by
  have hψ : Measurable fun (b : Fin k → Fin n → ℝ) c => φ (b c) :=
    measurable_pi_lambda _ fun c => hφ.comp (measurable_pi_apply c)
  have hp : IsProbabilityMeasure (μ.map φ) := Measure.isProbabilityMeasure_map hφ.aemeasurable
  have := AEMeasurable.map_map_of_aemeasurable (hψ.prodMap (measurable_id (α := ρ))).aemeasurable (aemeasurable_draws h)
  rw [h, ← Measure.map_prod_map _ _ hψ measurable_id, Measure.map_id, Measure.pi_map_pi fun _ => hφ.aemeasurable] at this
  exact this.symm

/-- A function of two draws, one after the other. -/
theorem draws_two {n m p : ℕ} {μ : Measure (Fin n → ℝ)} {ν : Measure (Fin m → ℝ)} [IsProbabilityMeasure μ] [IsProbabilityMeasure ν]
    [IsProbabilityMeasure Q] {k : ℕ}
    {B : ρ → Fin k → Fin n → ℝ} {T : ρ → ρ} (h : Q.map (fun r => (B r, T r)) = (Measure.pi fun _ => μ).prod Q)
    {B' : ρ → Fin k → Fin m → ℝ} {T' : ρ → ρ} (h' : Q.map (fun r => (B' r, T' r)) = (Measure.pi fun _ => ν).prod Q)
    {φ : (Fin n → ℝ) × (Fin m → ℝ) → Fin p → ℝ} (hφ : Measurable φ) :
    Q.map (fun r => (fun c => φ (B r c, B' (T r) c), T' (T r))) = (Measure.pi fun _ => (μ.prod ν).map φ).prod Q := by
  have hB := aemeasurable_draws h
  have hB' := aemeasurable_draws h'
  have hT : AEMeasurable T Q := hB.snd
  have hTQ : Q.map T = Q := by
    have := AEMeasurable.map_map_of_aemeasurable (measurable_snd.aemeasurable (μ := Q.map fun r => (B r, T r))) hB
    rw [h, Measure.map_snd_prod, measure_univ, one_smul] at this
    exact this.symm
  have hG := hB'.measurable_mk
  have hae : ∀ᵐ r ∂Q, (B' (T r), T' (T r)) = hB'.mk _ (T r) := by
    refine ae_of_ae_map (p := fun s => (B' s, T' s) = hB'.mk _ s) hT ?_
    rw [hTQ]
    exact hB'.ae_eq_mk
  have hmk : Q.map (hB'.mk _) = (Measure.pi fun _ => ν).prod Q := by
    rw [← Measure.map_congr hB'.ae_eq_mk, h']
  have h1 : Q.map (fun r => (B r, hB'.mk _ (T r))) = (Measure.pi fun _ => μ).prod ((Measure.pi fun _ => ν).prod Q) := by
    have := AEMeasurable.map_map_of_aemeasurable ((measurable_id (α := Fin k → Fin n → ℝ)).prodMap hG).aemeasurable hB
    rw [h, ← Measure.map_prod_map _ _ measurable_id hG, Measure.map_id, hmk] at this
    exact this.symm
  have hG1 : AEMeasurable (fun r => (B r, hB'.mk _ (T r))) Q := hB.fst.prodMk (hG.comp_aemeasurable hT)
  have hψ : Measurable fun q : (Fin k → Fin n → ℝ) × ((Fin k → Fin m → ℝ) × ρ) => ((fun c => φ (q.1 c, q.2.1 c) : Fin k → Fin p → ℝ), q.2.2) := by
    refine Measurable.prodMk (measurable_pi_lambda _ fun c => hφ.comp ?_) (by fun_prop)
    exact ((measurable_pi_apply c).comp measurable_fst).prodMk ((measurable_pi_apply c).comp (measurable_fst.comp measurable_snd))
  have h2 : Q.map (fun r => (fun c => φ (B r c, B' (T r) c), T' (T r))) =
      (Q.map (fun r => (B r, hB'.mk _ (T r)))).map
        fun q : (Fin k → Fin n → ℝ) × ((Fin k → Fin m → ℝ) × ρ) => ((fun c => φ (q.1 c, q.2.1 c) : Fin k → Fin p → ℝ), q.2.2) := by
    rw [AEMeasurable.map_map_of_aemeasurable hψ.aemeasurable hG1]
    refine Measure.map_congr (hae.mono fun r hr => ?_)
    simp only [Function.comp, ← hr]
  have hp : IsProbabilityMeasure ((μ.prod ν).map φ) := Measure.isProbabilityMeasure_map hφ.aemeasurable
  have hφ' : Measurable fun (b : Fin k → (Fin n → ℝ) × (Fin m → ℝ)) c => φ (b c) :=
    measurable_pi_lambda _ fun c => hφ.comp (measurable_pi_apply c)
  have hpr := (measurePreserving_arrowProdEquivProdArrow (Fin n → ℝ) (Fin m → ℝ) (Fin k) (fun _ => μ) (fun _ => ν))
  rw [h2, h1, ← Measure.prodAssoc_prod, Measure.map_map hψ MeasurableEquiv.prodAssoc.measurable, ← hpr.map_eq]
  have h3 : ((Measure.pi fun _ : Fin k => μ.prod ν).map (MeasurableEquiv.arrowProdEquivProdArrow (Fin n → ℝ) (Fin m → ℝ) (Fin k))).prod Q =
      ((Measure.pi fun _ : Fin k => μ.prod ν).prod Q).map
        (Prod.map (MeasurableEquiv.arrowProdEquivProdArrow (Fin n → ℝ) (Fin m → ℝ) (Fin k)) id) := by
    rw [← Measure.map_prod_map _ _ (MeasurableEquiv.measurable _) measurable_id, Measure.map_id]
  rw [h3, Measure.map_map (hψ.comp MeasurableEquiv.prodAssoc.measurable) ((MeasurableEquiv.measurable _).prodMap measurable_id),
    ← Measure.pi_map_pi fun _ => hφ.aemeasurable]
  have h4 := Measure.map_prod_map (Measure.pi fun _ : Fin k => μ.prod ν) Q hφ' measurable_id
  rw [Measure.map_id] at h4
  rw [h4]
  rfl

theorem map_flat_blocks {φ : ℝ → ℝ} {k n : ℕ} (a : Arr) : blocks k n (a.map φ) = fun c i => φ (blocks k n a c i) := rfl

/-- A function applied to every draw of a sample. -/
theorem onSample_draws [IsProbabilityMeasure Q] {g h : Generic ρ} {n m : ℕ} {μ : Measure (Fin n → ℝ)} [IsProbabilityMeasure μ] {size : List ℕ}
    (hd : DrawsAt Q g n μ size) {f : List ℕ → Arr → Res Arr} (hs : h.sample = some (Generic.onSample f g)) (hm : h.shape.prod = m)
    {φ : (Fin n → ℝ) → Fin m → ℝ} (hφ : Measurable φ)
    (hf : ∀ a : Arr, a.shape = size ++ g.shape → ∃ y, f size a = .ok y ∧ y.shape = size ++ h.shape ∧
      ∀ c i, blocks size.prod m y c i = φ (blocks size.prod n a c) i) :
    DrawsAt Q h m (μ.map φ) size := by
  obtain ⟨hn, S, T, h1, h2⟩ := hd
  choose Y e1 e2 e3 using fun r => hf (S r) (h1 r).2
  refine ⟨hm, Y, T, fun r => ⟨?_, e2 r⟩, ?_⟩
  · rw [Generic.sampleP, hs]
    show (g.sampleP size r).bind _ = _
    rw [(h1 r).1]
    show (f size (S r)).map _ = _
    rw [e1 r]
    rfl
  · rw [← draws_map h2 hφ]
    congr 1
    funext r
    refine Prod.ext (funext fun c => funext fun i => ?_) rfl
    exact e3 r c i

/-- Binary operations applied to pairs of draws. -/
theorem binSample_draws [IsProbabilityMeasure Q] {g h R : Generic ρ} {n m p : ℕ} {μ : Measure (Fin n → ℝ)} {ν : Measure (Fin m → ℝ)}
    [IsProbabilityMeasure μ] [IsProbabilityMeasure ν] {size : List ℕ} (hd : DrawsAt Q g n μ size) (hd' : DrawsAt Q h m ν size)
    {op : Arr → Arr → Res Arr} (hs : R.sample = some (Generic.binSample op g h)) (hp : R.shape.prod = p)
    {φ : (Fin n → ℝ) × (Fin m → ℝ) → Fin p → ℝ} (hφ : Measurable φ)
    (hf : ∀ a b : Arr, a.shape = size ++ g.shape → b.shape = size ++ h.shape → ∃ y, op a b = .ok y ∧ y.shape = size ++ R.shape ∧
      ∀ c i, blocks size.prod p y c i = φ (blocks size.prod n a c, blocks size.prod m b c) i) :
    DrawsAt Q R p ((μ.prod ν).map φ) size := by
  obtain ⟨_, S, T, h1, h2⟩ := hd
  obtain ⟨_, S', T', h1', h2'⟩ := hd'
  choose Y e1 e2 e3 using fun r => hf (S r) (S' (T r)) (h1 r).2 (h1' (T r)).2
  refine ⟨hp, Y, fun r => T' (T r), fun r => ⟨?_, e2 r⟩, ?_⟩
  · rw [Generic.sampleP, hs]
    show (g.sampleP size r).bind _ = _
    rw [(h1 r).1]
    show (h.sampleP size (T r)).bind _ = _
    rw [(h1' (T r)).1]
    show (op (S r) (S' (T r))).map _ = _
    rw [e1 r]
    rfl
  · rw [← draws_two h2 h2' hφ]
    congr 1
    funext r
    refine Prod.ext (funext fun c => funext fun i => ?_) rfl
    exact e3 r c i

theorem block_lt {k n : ℕ} (c : Fin k) (i : Fin n) : (c : ℕ) * n + i < k * n := by
  have hc := c.2
  have hi := i.2
  calc (c : ℕ) * n + i < c * n + n := by omega
    _ = (c + 1) * n := by ring
    _ ≤ k * n := Nat.mul_le_mul_right _ hc

/-! ## An ideal generator -/

/-- A stream of random numbers. -/
def streamSample (shape size : List ℕ) (r : ℕ → ℝ) : Res (Arr × (ℕ → ℝ)) :=
  .ok (⟨size ++ shape, fun idx => r (ravel (size ++ shape) idx)⟩, fun i => r (size.prod * shape.prod + i))

/-- A random variable that reads its entries from the stream. -/
def streamVar (shape : List ℕ) : Generic (ℕ → ℝ) := { shape := shape, sample := some (streamSample shape) }

theorem prod_split {M : Type} [CommMonoid M] (k n l : ℕ) (f : ℕ → M) :
    ∏ i ∈ Finset.range (k * n + l), f i = (∏ c : Fin k, ∏ i : Fin n, f (c * n + i)) * ∏ i ∈ Finset.range l, f (k * n + i) := by
  rw [Finset.prod_range_add, ← Fin.prod_univ_eq_prod_range (fun i => f i) (k * n), ← Finset.prod_product', ← finProdFinEquiv.prod_comp]
  congr 1
  refine Finset.prod_congr rfl fun x _ => ?_
  congr 1
  show (x.2 : ℕ) + n * x.1 = x.1 * n + x.2
  ring

theorem pos_of_block {i k n : ℕ} (h : i < k * n) : 0 < n := by
  rcases Nat.eq_zero_or_pos n with h0 | h0
  · rw [h0, Nat.mul_zero] at h
    omega
  · exact h0

/-- The first numbers of an i.i.d. stream are i.i.d., and independent of the rest, which is such a stream again. -/
theorem stream_split (ν : Measure ℝ) [IsProbabilityMeasure ν] (k n : ℕ) :
    (Measure.infinitePi fun _ : ℕ => ν).map
      (fun r => ((fun c i => r (c * n + i) : Fin k → Fin n → ℝ), (fun i => r (k * n + i) : ℕ → ℝ))) =
      (Measure.pi fun _ => Measure.pi fun _ => ν).prod (Measure.infinitePi fun _ => ν) := by
  let A : (Fin k → Fin n → ℝ) × (ℕ → ℝ) → ℕ → ℝ := fun q i =>
    if h : i < k * n then q.1 ⟨i / n, (Nat.div_lt_iff_lt_mul (pos_of_block h)).2 h⟩
      ⟨i % n, Nat.mod_lt _ (pos_of_block h)⟩ else q.2 (i - k * n)
  have hA1 : ∀ q (c : Fin k) (i : Fin n), A q (c * n + i) = q.1 c i := fun q c i => by
    have hn : 0 < n := i.pos
    have e1 : (c * n + i : ℕ) / n = c := by
      rw [Nat.add_comm, Nat.add_mul_div_right _ _ hn, Nat.div_eq_of_lt i.2, Nat.zero_add]
    have e2 : (c * n + i : ℕ) % n = i := by rw [Nat.add_comm, Nat.add_mul_mod_self_right, Nat.mod_eq_of_lt i.2]
    simp only [A, dif_pos (block_lt c i), e1, e2]
  have hA2 : ∀ q i, A q (k * n + i) = q.2 i := fun q i => by
    simp only [A]
    rw [dif_neg (by omega), Nat.add_sub_cancel_left]
  have hAm : Measurable A := by
    refine measurable_pi_lambda _ fun i => ?_
    by_cases h : i < k * n
    · simp only [A, dif_pos h]
      exact (measurable_pi_apply _).comp ((measurable_pi_apply _).comp measurable_fst)
    · simp only [A, dif_neg h]
      fun_prop
  have hA : ((Measure.pi fun _ : Fin k => Measure.pi fun _ : Fin n => ν).prod (Measure.infinitePi fun _ : ℕ => ν)).map A =
      Measure.infinitePi fun _ : ℕ => ν := by
    refine Measure.eq_infinitePi _ fun s t ht => ?_
    classical
    let t' : ℕ → Set ℝ := fun i => if i ∈ s then t i else Set.univ
    let l := s.sup id + 1
    have hl : ∀ i ∈ s, i < k * n + l := fun i hi => by
      have : i ≤ s.sup id := Finset.le_sup (f := id) hi
      omega
    have ht' : ∀ i, MeasurableSet (t' i) := fun i => by
      by_cases h : i ∈ s
      · simp only [t', if_pos h]; exact ht i
      · simp only [t', if_neg h]; exact MeasurableSet.univ
    have hset : A ⁻¹' (Set.pi s t) = (Set.univ.pi fun c : Fin k => Set.univ.pi fun i : Fin n => t' (c * n + i)) ×ˢ
        (Set.pi (Finset.range l) fun i => t' (k * n + i)) := by
      ext q
      simp only [Set.mem_preimage, Set.mem_pi, Finset.mem_coe, Set.mem_prod, Set.mem_univ, true_imp_iff, Finset.mem_range]
      constructor
      · refine fun h => ⟨fun c i => ?_, fun i _ => ?_⟩
        · by_cases hs : (c * n + i : ℕ) ∈ s
          · simp only [t', if_pos hs]
            rw [← hA1]
            exact h _ hs
          · simp only [t', if_neg hs]
            trivial
        · by_cases hs : (k * n + i : ℕ) ∈ s
          · simp only [t', if_pos hs]
            rw [← hA2]
            exact h _ hs
          · simp only [t', if_neg hs]
            trivial
      · rintro ⟨h1, h2⟩ i hi
        by_cases hk : i < k * n
        · have hn : 0 < n := pos_of_block hk
          have := h1 ⟨i / n, (Nat.div_lt_iff_lt_mul hn).2 hk⟩ ⟨i % n, Nat.mod_lt _ hn⟩
          rw [← hA1] at this
          simp only [Nat.div_add_mod', t', if_pos hi] at this
          exact this
        · obtain ⟨j, rfl⟩ : ∃ j, i = k * n + j := ⟨i - k * n, by omega⟩
          have := h2 j (by have := hl _ hi; omega)
          simp only [t', if_pos hi] at this
          rw [hA2]
          exact this
    rw [Measure.map_apply hAm (MeasurableSet.pi s.countable_toSet fun i _ => ht i), hset, Measure.prod_prod, Measure.pi_pi,
      Measure.infinitePi_pi _ fun i _ => ht' _]
    simp_rw [Measure.pi_pi]
    rw [← prod_split k n l fun i => ν (t' i)]
    refine (Finset.prod_subset (fun i hi => Finset.mem_range.2 (hl i hi)) fun i _ hi => ?_).symm.trans
      (Finset.prod_congr rfl fun i hi => ?_)
    · simp only [t', if_neg hi, measure_univ]
    · simp only [t', if_pos hi]
  have hD : Measurable fun r : ℕ → ℝ => ((fun c i => r (c * n + i) : Fin k → Fin n → ℝ), (fun i => r (k * n + i) : ℕ → ℝ)) := by
    fun_prop
  conv_lhs => rw [← hA]
  rw [Measure.map_map hD hAm]
  convert Measure.map_id using 2
  funext q
  exact Prod.ext (funext fun c => funext fun i => hA1 q c i) (funext fun i => hA2 q i)

theorem stream_draws (ν : Measure ℝ) [IsProbabilityMeasure ν] (shape size : List ℕ) :
    DrawsAt (Measure.infinitePi fun _ => ν) (streamVar shape) shape.prod (Measure.pi fun _ => ν) size := by
  refine ⟨rfl, fun r => ⟨size ++ shape, fun idx => r (ravel (size ++ shape) idx)⟩, fun r i => r (size.prod * shape.prod + i),
    fun r => ⟨rfl, rfl⟩, ?_⟩
  rw [← stream_split ν]
  congr 1
  funext r
  refine Prod.ext (funext fun c => funext fun i => ?_) rfl
  show r (ravel (size ++ shape) (unravel (size ++ shape) _)) = _
  rw [ravel_unravel]
  rw [List.prod_append]
  exact block_lt c i

end Probnum.RandVars
