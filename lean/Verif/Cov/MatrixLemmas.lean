import Verif.Cov.PropsAlgebra

/-!
# Lemmas on `matrix`
-/

namespace Probnum.Cov

open Finset RandVars Functions

/-- Point number `p` (in C order) of a batch of shape `b`. -/
def batchPoint (b : List ℕ) (x : Arr) (p : ℕ) : Point := fun k => x.get (unravel b p ++ k)

/-- Two points of shape `i` have the same entries. -/
def Agree (i : List ℕ) (x y : Point) : Prop := ∀ k, Valid i k → x k = y k

theorem Agree.at {i : List ℕ} {x y : Point} (h : Agree i x y) {j : ℕ} (hj : j < i.prod) : x.at i j = y.at i j :=
  h _ (unravel_valid hj)

theorem filterMap_ofNat : ∀ i : List ℕ, (i.map Int.ofNat).filterMap (fun d => if d < 0 then none else some d.toNat) = i
  | [] => rfl
  | d :: i => by
    rw [List.map_cons, List.filterMap_cons, if_neg (by simp), filterMap_ofNat i]; rfl

theorem reshape_batch {i b : List ℕ} {x : Arr} (hx : x.shape = b ++ i) (hi : i.prod ≠ 0) :
    x.reshape (-1 :: i.map Int.ofNat) = .ok (x.withShape (b.prod :: i)) := by
  have hk : knownSize (-1 :: i.map Int.ofNat) = i.prod := by
    rw [knownSize, List.filterMap_cons, if_pos (by norm_num), filterMap_ofNat]
  have hc : (-1 :: i.map Int.ofNat).countP (fun d => decide (d = -1)) = 1 := by
    rw [List.countP_cons_of_pos (by simp)]
    have : (i.map Int.ofNat).countP (fun d => decide (d = -1)) = 0 := by
      rw [List.countP_eq_zero]
      intro a ha
      obtain ⟨n, _, rfl⟩ := List.mem_map.mp ha
      simp only [Int.ofNat_eq_natCast, decide_eq_true_eq]
      omega
    omega
  have ha : (-1 :: i.map Int.ofNat).any (fun d => decide (d < -1)) = false := by
    rw [List.any_eq_false]
    intro a ha
    rcases List.mem_cons.mp ha with rfl | ha
    · simp
    · obtain ⟨n, _, rfl⟩ := List.mem_map.mp ha
      simp only [Int.ofNat_eq_natCast, decide_eq_true_eq]
      omega
  have hsz : x.size = b.prod * i.prod := by rw [Arr.size, hx, List.prod_append]
  have hn : newShape x.size (-1 :: i.map Int.ofNat) = .ok (b.prod :: i) := by
    unfold newShape
    rw [hc, ha, hk, hsz, if_neg (by simp), if_pos rfl, if_neg (by simp [hi]), Nat.mul_div_cancel _ (Nat.pos_of_ne_zero hi)]
    congr 1
    rw [List.map_cons, if_pos rfl, List.map_map]
    congr 1
    conv_rhs => rw [← List.map_id i]
    refine List.map_congr_left fun n _ => ?_
    show (if (n : ℤ) = -1 then b.prod else (n : ℤ).toNat) = n
    rw [if_neg (by omega)]; simp
  rw [Arr.reshape, hn]; rfl

theorem preprocess_ok {k : Core} {i b : List ℕ} (hk : k.inputShape = .ok i) {x : Inp} (hx : x.arr.shape = b ++ i)
    (hi : i.prod ≠ 0) : preprocess k i x = .ok ⟨x.arr.withShape (b.prod :: i), x.int⟩ := by
  unfold preprocess
  rw [if_neg, hk]
  · show (x.arr.reshape (-1 :: i.map Int.ofNat)).map _ = _
    rw [reshape_batch hx hi]; rfl
  · rintro (h | h)
    · rw [hx] at h; simp at h
    · rw [ne_eq, sliceFrom_eq_iff] at h
      exact h ⟨b, hx⟩

theorem withShape_point {i b : List ℕ} {x : Arr} (hx : x.shape = b ++ i) {p : ℕ} (hp : p < b.prod) :
    Agree i (fun k => (x.withShape (b.prod :: i)).get (p :: k)) (batchPoint b x p) := by
  intro k hk
  show x.flat (ravel (b.prod :: i) (p :: k)) = x.get (unravel b p ++ k)
  have e : ravel (b.prod :: i) (p :: k) = ravel (b ++ i) (unravel b p ++ k) := by
    have h1 := ravel_append (s := [b.prod]) (l := [p]) hk.length
    rw [List.singleton_append, List.singleton_append] at h1
    rw [h1, ravel_append hk.length, ravel_unravel hp]
    simp [ravel, rav]
  rw [e, Arr.flat, hx, unravel_ravel ((unravel_valid hp).append hk)]

theorem bshape_outer (N M : ℕ) : bshape [N, 1] [1, M] = .ok [N, M] := by
  have h1 : bdim 1 M = some M := by unfold bdim; split <;> simp_all
  have h2 : bdim N 1 = some N := by unfold bdim; split <;> simp_all
  show (match brev [1, N] [M, 1] with | some u => Except.ok u.reverse | none => _) = _
  simp [brev, h1, h2, consOpt]

theorem outer_batch {i : List ℕ} {N M : ℕ} {x y : Arr} (hx : x.shape = N :: i) (hy : y.shape = M :: i) (u v : Bool) :
    Batch i ⟨insertAxis x, u⟩ (some ⟨y.asRow, v⟩) [N, M] := by
  refine ⟨[N, 1], [1, M], ?_, ?_, bshape_outer N M⟩
  · show x.shape.headD 1 :: 1 :: x.shape.tail = _
    rw [hx]; rfl
  · show 1 :: y.shape = _
    rw [hy]; rfl

theorem pointAt_insert {i : List ℕ} {N : ℕ} {x : Arr} (hx : x.shape = N :: i) {p : ℕ} (hp : p < N) (q : ℕ) :
    pointAt i (insertAxis x) [p, q] = fun k => x.get (p :: k) := by
  have hs : (insertAxis x).shape = [N, 1] ++ i := by
    show x.shape.headD 1 :: 1 :: x.shape.tail = _
    rw [hx]; rfl
  funext k
  show x.get _ = _
  rw [hs]
  have : ([N, 1] ++ i).take (([N, 1] ++ i).length - i.length) = [N, 1] := by
    rw [List.length_append, Nat.add_sub_cancel]; rfl
  rw [this]
  have hp' : (if N = 1 then 0 else p) = p := by split <;> omega
  simp [bir, hp']

theorem pointAt_asRow {i : List ℕ} {M : ℕ} {y : Arr} (hy : y.shape = M :: i) {q : ℕ} (hq : q < M) (p : ℕ) :
    pointAt i y.asRow [p, q] = fun k => y.get (q :: k) := by
  have hs : y.asRow.shape = [1, M] ++ i := by
    show 1 :: y.shape = _
    rw [hy]; rfl
  funext k
  show y.get _ = _
  rw [hs]
  have : ([1, M] ++ i).take (([1, M] ++ i).length - i.length) = [1, M] := by
    rw [List.length_append, Nat.add_sub_cancel]; rfl
  rw [this]
  have hq' : (if M = 1 then 0 else q) = q := by split <;> omega
  simp [bir, hq']

theorem moveSecondLast_shape {N M : ℕ} {t : List ℕ} {c : Arr} (hc : c.shape = N :: M :: t) :
    (moveSecondLast c).shape = N :: t ++ [M] := by
  show (c.shape.headD 0 :: c.shape.drop 2) ++ [c.shape.getD 1 0] = _
  rw [hc]; rfl

theorem moveFirstTo_shape {N : ℕ} {s t : List ℕ} {c : Arr} (hc : c.shape = N :: (s ++ t)) :
    (moveFirstTo s.length c).shape = s ++ N :: t := by
  show (c.shape.tail.take s.length) ++ c.shape.headD 0 :: c.shape.tail.drop s.length = _
  rw [hc]; simp

theorem move_get {N M : ℕ} {o0 o1 : List ℕ} {c : Arr} (hc : c.shape = N :: M :: (o0 ++ o1)) {a d : List ℕ} (ha : Valid o0 a) (p q : ℕ) :
    (moveFirstTo o0.length (moveSecondLast c)).get (a ++ p :: (d ++ [q])) = c.get (p :: q :: (a ++ d)) := by
  show c.get _ = _
  have hl := ha.length
  have e1 : (a ++ p :: (d ++ [q])).getD o0.length 0 = p := by
    rw [hl, List.getD_eq_getElem?_getD]; simp
  have e2 : (a ++ p :: (d ++ [q])).take o0.length = a := by rw [hl]; simp
  have e3 : (a ++ p :: (d ++ [q])).drop (o0.length + 1) = d ++ [q] := by
    rw [hl, List.drop_append]; simp
  rw [e1, e2, e3, ← List.append_assoc]
  have e4 : (p :: (a ++ d ++ [q])).getLastD 0 = q := by
    rw [List.getLastD_cons, List.getLastD_concat]
  have e5 : (p :: (a ++ d ++ [q])).tail.dropLast = a ++ d := by simp
  rw [e4, e5]; rfl

/-- Rows and columns of the matrix: output entries first, points last. -/
theorem evaluateMatrix_ok {k : Core} {N M : ℕ} {x0 : Inp} {x1 : Option Inp} {c : Arr}
    (h : k.call ⟨insertAxis x0.arr, x0.int⟩ (some ⟨(x1.getD x0).arr.asRow, (x1.getD x0).int⟩) = .ok c)
    (hc : c.shape = N :: M :: (k.out0 ++ k.out1)) :
    ∃ m, evaluateMatrix k x0 x1 = .ok m ∧ m.shape = [k.out0.prod * N, k.out1.prod * M] ∧
      ∀ a d p q, Valid k.out0 a → Valid k.out1 d → p < N → q < M →
        m.get [ravel k.out0 a * N + p, ravel k.out1 d * M + q] = c.get (p :: q :: (a ++ d)) := by
  refine ⟨(moveFirstTo k.out0.length (moveSecondLast c)).withShape
    [k.out0.prod * c.shape.getD 0 0, k.out1.prod * c.shape.getD 1 0], by simp only [evaluateMatrix, h, Except.bind], ?_, ?_⟩
  · show [k.out0.prod * c.shape.getD 0 0, k.out1.prod * c.shape.getD 1 0] = _
    rw [hc]; rfl
  · intro a d p q ha hd hp hq
    show (moveFirstTo k.out0.length (moveSecondLast c)).flat (ravel [k.out0.prod * c.shape.getD 0 0, k.out1.prod * c.shape.getD 1 0] _) = _
    have g0 : c.shape.getD 0 0 = N := by rw [hc]; rfl
    have g1 : c.shape.getD 1 0 = M := by rw [hc]; rfl
    have hs : (moveFirstTo k.out0.length (moveSecondLast c)).shape = k.out0 ++ ([N] ++ (k.out1 ++ [M])) := by
      rw [moveFirstTo_shape (t := k.out1 ++ [M]) (N := N)]
      · rfl
      · rw [moveSecondLast_shape hc]; simp
    have hv : Valid (k.out0 ++ ([N] ++ (k.out1 ++ [M]))) (a ++ ([p] ++ (d ++ [q]))) :=
      ha.append (Valid.append (s := [N]) (l := [p]) (List.Forall₂.cons hp List.Forall₂.nil)
        (hd.append (List.Forall₂.cons hq List.Forall₂.nil)))
    have hr : ravel (k.out0 ++ ([N] ++ (k.out1 ++ [M]))) (a ++ ([p] ++ (d ++ [q]))) =
        ravel [k.out0.prod * N, k.out1.prod * M] [ravel k.out0 a * N + p, ravel k.out1 d * M + q] := by
      have l2 : (k.out1 ++ [M]).length = (d ++ [q]).length := by simp [hd.length]
      have l1 : ([N] ++ (k.out1 ++ [M])).length = ([p] ++ (d ++ [q])).length := by simp [hd.length]
      rw [ravel_append l1, ravel_append l2, ravel_append (by rfl), ravel_two, List.prod_append, List.prod_append]
      simp [ravel, rav]
      ring
    rw [g0, g1, ← hr, Arr.flat, hs, unravel_ravel hv]
    exact move_get hc ha p q

end Probnum.Cov
