import Verif.RandVars.Model
import Verif.Linops.Mat

/-! Helper lemmas about arrays. -/

namespace Probnum.RandVars

open Finset

theorem rav_unr : ∀ (s : List ℕ) (k : ℕ), k < s.prod → rav s (unr s k) = k
  | [], k, h => by simp at h; simp [rav, unr, h]
  | d :: s, k, h => by
    rw [List.prod_cons] at h
    have hd : 0 < d := by
      rcases Nat.eq_zero_or_pos d with h0 | h0
      · rw [h0, Nat.zero_mul] at h; omega
      · exact h0
    have : k / d < s.prod := (Nat.div_lt_iff_lt_mul hd).2 (by rwa [Nat.mul_comm])
    rw [unr, rav, rav_unr s _ this, Nat.mod_add_div]

theorem unr_length : ∀ (s : List ℕ) (k : ℕ), (unr s k).length = s.length
  | [], _ => rfl
  | d :: s, k => by rw [unr, List.length_cons, unr_length s, List.length_cons]

theorem unr_valid : ∀ (s : List ℕ) (k : ℕ), k < s.prod → Valid s (unr s k)
  | [], k, _ => List.Forall₂.nil
  | d :: s, k, h => by
    rw [List.prod_cons] at h
    have hd : 0 < d := by
      rcases Nat.eq_zero_or_pos d with h0 | h0
      · rw [h0, Nat.zero_mul] at h; omega
      · exact h0
    have : k / d < s.prod := (Nat.div_lt_iff_lt_mul hd).2 (by rwa [Nat.mul_comm])
    exact List.Forall₂.cons (Nat.mod_lt _ hd) (unr_valid s _ this)

theorem unr_rav : ∀ {s l : List ℕ}, Valid s l → unr s (rav s l) = l
  | [], [], _ => rfl
  | d :: s, i :: l, h => by
    cases h with
    | cons h1 h2 =>
      rw [rav, unr, Nat.add_mul_mod_self_left, Nat.mod_eq_of_lt h1, Nat.add_mul_div_left _ _ (by omega),
        Nat.div_eq_of_lt h1, Nat.zero_add, unr_rav h2]

theorem rav_lt : ∀ {s l : List ℕ}, Valid s l → rav s l < s.prod
  | [], [], _ => by simp [rav]
  | d :: s, i :: l, h => by
    cases h with
    | cons h1 h2 =>
      have := rav_lt h2
      rw [rav, List.prod_cons]
      calc i + d * rav s l < d + d * rav s l := by omega
        _ = d * (rav s l + 1) := by ring
        _ ≤ d * s.prod := Nat.mul_le_mul_left _ this

theorem rav_append : ∀ {s l : List ℕ}, s.length = l.length → ∀ t m : List ℕ,
    rav (s ++ t) (l ++ m) = rav s l + s.prod * rav t m
  | [], [], _, t, m => by simp [rav]
  | d :: s, i :: l, h, t, m => by
    rw [List.cons_append, List.cons_append, rav, rav, rav_append (by simpa using h), List.prod_cons]
    ring

theorem Valid.rev {s l : List ℕ} (h : Valid s l) : Valid s.reverse l.reverse := by
  unfold Valid at *
  exact List.rel_reverse h

theorem Valid.length {s l : List ℕ} (h : Valid s l) : s.length = l.length := List.Forall₂.length_eq h

theorem Valid.append {s t l m : List ℕ} (h : Valid s l) (h' : Valid t m) : Valid (s ++ t) (l ++ m) :=
  List.rel_append h h'

theorem ravel_unravel {s : List ℕ} {k : ℕ} (h : k < s.prod) : ravel s (unravel s k) = k := by
  rw [ravel, unravel, List.reverse_reverse, rav_unr]
  rwa [List.prod_reverse]

theorem unravel_ravel {s l : List ℕ} (h : Valid s l) : unravel s (ravel s l) = l := by
  rw [unravel, ravel, unr_rav h.rev, List.reverse_reverse]

theorem ravel_lt {s l : List ℕ} (h : Valid s l) : ravel s l < s.prod := by
  rw [ravel, ← List.prod_reverse]; exact rav_lt h.rev

theorem unravel_valid {s : List ℕ} {k : ℕ} (h : k < s.prod) : Valid s (unravel s k) := by
  have := (unr_valid s.reverse k (by rwa [List.prod_reverse])).rev
  rwa [List.reverse_reverse] at this

theorem ravel_append {s l t m : List ℕ} (h' : t.length = m.length) :
    ravel (s ++ t) (l ++ m) = ravel t m + t.prod * ravel s l := by
  rw [ravel, List.reverse_append, List.reverse_append, rav_append (by simpa using h'), List.prod_reverse]; rfl

theorem unravel_nil (k : ℕ) : unravel [] k = [] := rfl

theorem unravel_one (n k : ℕ) (h : k < n) : unravel [n] k = [k] := by
  simp [unravel, unr, Nat.mod_eq_of_lt h]

theorem unravel_two (m n k : ℕ) (h : k < m * n) : unravel [m, n] k = [k / n, k % n] := by
  have : k / n < m := Nat.div_lt_of_lt_mul (by rwa [Nat.mul_comm])
  simp [unravel, unr, Nat.mod_eq_of_lt this]

theorem ravel_two (m n i j : ℕ) : ravel [m, n] [i, j] = j + n * i := by simp [ravel, rav]

theorem Arr.flat_nil {a : Arr} (h : a.shape = []) (k : ℕ) : a.flat k = a.get [] := by rw [Arr.flat, h]; rfl

theorem Arr.flat_one {a : Arr} {n k : ℕ} (h : a.shape = [n]) (hk : k < n) : a.flat k = a.get [k] := by
  rw [Arr.flat, h, unravel_one n k hk]

theorem Arr.flat_two {a : Arr} {m n k : ℕ} (h : a.shape = [m, n]) (hk : k < m * n) : a.flat k = a.get [k / n, k % n] := by
  rw [Arr.flat, h, unravel_two m n k hk]

theorem Arr.withShape_flat {a : Arr} {s : List ℕ} {k : ℕ} (hk : k < s.prod) : (a.withShape s).flat k = a.flat k := by
  rw [Arr.flat]
  show a.flat (ravel s (unravel s k)) = _
  rw [ravel_unravel hk]

/-! ### Broadcasting -/

theorem bir_self : ∀ (s : List ℕ) (k : ℕ), bir s (unr s k) = unr s k
  | [], _ => rfl
  | d :: s, k => by
    rw [unr, bir, bir_self s]
    by_cases h : d = 1
    · rw [if_pos h, h, Nat.mod_one]
    · rw [if_neg h]

theorem bdim_cases {a b d : ℕ} (h : bdim a b = some d) : (d = a) ∨ (a = 1 ∧ d = b) := by
  unfold bdim at h
  split at h
  · simp at h; exact Or.inl h.symm
  · split at h
    · rename_i _ h1; simp at h; exact Or.inr ⟨h1, h.symm⟩
    · split at h
      · simp at h; exact Or.inl h.symm
      · simp at h

theorem consOpt_some {d : Option ℕ} {l : Option (List ℕ)} {u : List ℕ} (h : consOpt d l = some u) :
    ∃ e r, d = some e ∧ l = some r ∧ u = e :: r := by
  cases d with
  | none => simp [consOpt] at h
  | some e =>
    cases l with
    | none => simp [consOpt] at h
    | some r =>
      simp [consOpt] at h
      exact ⟨e, r, rfl, rfl, h.symm⟩

theorem brev_le : ∀ {s t u : List ℕ}, brev s t = some u → 0 < u.prod → s.prod ≤ u.prod
  | [], t, u, _, h0 => by rw [List.prod_nil]; exact h0
  | a :: s, [], u, h, _ => by simp only [brev, Option.some.injEq] at h; rw [← h]
  | a :: s, b :: t, u, h, h0 => by
    rw [brev] at h
    obtain ⟨e, r, h1, h2, rfl⟩ := consOpt_some h
    rw [List.prod_cons] at h0 ⊢
    have hr : 0 < r.prod := Nat.pos_of_mul_pos_left h0
    have he : 0 < e := Nat.pos_of_mul_pos_right h0
    have := brev_le h2 hr
    rw [List.prod_cons]
    rcases bdim_cases h1 with rfl | ⟨rfl, rfl⟩
    · exact Nat.mul_le_mul_left _ this
    · exact Nat.mul_le_mul he this

theorem bir_unr : ∀ {s t u : List ℕ}, brev s t = some u → u.prod = s.prod → 0 < s.prod → ∀ k, bir s (unr u k) = unr s k
  | [], t, u, _, _, _, k => by simp [bir, unr]
  | a :: s, [], u, h, _, _, k => by simp only [brev, Option.some.injEq] at h; rw [← h]; exact bir_self _ _
  | a :: s, b :: t, u, h, hp, h0, k => by
    rw [brev] at h
    obtain ⟨e, r, h1, h2, rfl⟩ := consOpt_some h
    rw [List.prod_cons] at h0
    rw [List.prod_cons, List.prod_cons] at hp
    have hr0 : 0 < r.prod := Nat.pos_of_mul_pos_left (by rw [hp]; exact h0 : 0 < e * r.prod)
    have hle := brev_le h2 hr0
    have hs0 : 0 < s.prod := Nat.pos_of_mul_pos_left h0
    have hae : e = a := by
      rcases bdim_cases h1 with h3 | ⟨h3, h4⟩
      · exact h3
      · subst h3
        have he : 0 < e := Nat.pos_of_mul_pos_right (by rw [hp]; exact h0 : 0 < e * r.prod)
        by_contra hne
        have : 2 ≤ e := by omega
        have := Nat.mul_le_mul this hle
        omega
    subst hae
    have ha0 : 0 < e := Nat.pos_of_mul_pos_right h0
    have hrs : r.prod = s.prod := Nat.eq_of_mul_eq_mul_left ha0 hp
    rw [unr, unr, bir, bir_unr h2 hrs hs0]
    by_cases h : e = 1
    · rw [if_pos h, h, Nat.mod_one]
    · rw [if_neg h]

theorem bdim_comm (a b : ℕ) : bdim a b = bdim b a := by
  unfold bdim
  by_cases h : a = b
  · subst h; rfl
  · rw [if_neg h, if_neg (Ne.symm h)]
    by_cases h1 : a = 1
    · rw [if_pos h1]
      by_cases h2 : b = 1
      · omega
      · rw [if_neg h2, if_pos h1]
    · rw [if_neg h1]
      by_cases h2 : b = 1
      · rw [if_pos h2, if_pos h2]
      · rw [if_neg h2, if_neg h2, if_neg h1]

theorem brev_comm : ∀ s t : List ℕ, brev s t = brev t s
  | [], [] => rfl
  | [], _ :: _ => rfl
  | _ :: _, [] => rfl
  | a :: s, b :: t => by rw [brev, brev, brev_comm s t, bdim_comm]

theorem brev_self : ∀ s : List ℕ, brev s s = some s
  | [] => rfl
  | a :: s => by rw [brev, brev_self s]; simp [consOpt, bdim]

theorem brev_nil : ∀ s : List ℕ, brev s [] = some s
  | [] => rfl
  | _ :: _ => rfl

theorem bshape_ok {s t u : List ℕ} (h : bshape s t = .ok u) : brev s.reverse t.reverse = some u.reverse := by
  unfold bshape at h
  cases hb : brev s.reverse t.reverse with
  | none => rw [hb] at h; cases h
  | some v => rw [hb] at h; cases h; rw [List.reverse_reverse]

theorem bshape_comm (s t : List ℕ) : bshape s t = bshape t s := by rw [bshape, bshape, brev_comm]

theorem bshape_self (s : List ℕ) : bshape s s = .ok s := by rw [bshape, brev_self]; simp

theorem bshape_nil (s : List ℕ) : bshape s [] = .ok s := by rw [bshape, List.reverse_nil, brev_nil]; simp

/-- Broadcasting an operand to a shape with as many entries does not move its entries. -/
theorem Arr.bget_flat {a : Arr} {t u : List ℕ} (h : bshape a.shape t = .ok u) (hp : u.prod = a.size) {k : ℕ}
    (hk : k < a.size) : a.bget (unravel u k) = a.flat k := by
  have := bir_unr (bshape_ok h) (by rw [List.prod_reverse, List.prod_reverse]; exact hp)
    (by rw [List.prod_reverse]; exact Nat.lt_of_le_of_lt (Nat.zero_le _) hk) k
  rw [Arr.bget, unravel, List.reverse_reverse, this]; rfl

theorem bir_zeros : ∀ (s : List ℕ), s.prod = 1 → ∀ l : List ℕ, s.length ≤ l.length → bir s l = unr s 0
  | [], _, _, _ => by simp [bir, unr]
  | d :: s, h, i :: l, hl => by
    rw [List.prod_cons] at h
    have h1 := Nat.eq_one_of_mul_eq_one_right h
    have h2 := Nat.eq_one_of_mul_eq_one_left h
    rw [bir, unr, if_pos h1, Nat.zero_mod, Nat.zero_div, bir_zeros s h2 l (by simpa using hl)]

theorem brev_length : ∀ {s t u : List ℕ}, brev s t = some u → s.length ≤ u.length
  | [], _, _, _ => by simp
  | _ :: _, [], u, h => by simp only [brev, Option.some.injEq] at h; rw [← h]
  | a :: s, b :: t, u, h => by
    rw [brev] at h
    obtain ⟨e, r, _, h2, rfl⟩ := consOpt_some h
    have := brev_length h2
    simpa using this

/-- An operand with one entry contributes this entry everywhere. -/
theorem Arr.bget_single {a : Arr} {t u : List ℕ} (h : bshape a.shape t = .ok u) (h1 : a.size = 1) (k : ℕ) :
    a.bget (unravel u k) = a.flat 0 := by
  have hl := brev_length (bshape_ok h)
  rw [Arr.bget, unravel, List.reverse_reverse, bir_zeros _ (by rw [List.prod_reverse]; exact h1) _
    (by rw [unr_length]; exact hl)]
  rfl

theorem Arr.bin_ok {f : ℝ → ℝ → ℝ} {a b y : Arr} (h : a.bin f b = .ok y) :
    bshape a.shape b.shape = .ok y.shape ∧ ∀ idx, y.get idx = f (a.bget idx) (b.bget idx) := by
  unfold Arr.bin at h
  cases hb : bshape a.shape b.shape with
  | error e => rw [hb] at h; cases h
  | ok u => rw [hb] at h; cases h; exact ⟨rfl, fun _ => rfl⟩

theorem Arr.bin_eq {f : ℝ → ℝ → ℝ} {a b : Arr} {u : List ℕ} (h : bshape a.shape b.shape = .ok u) :
    a.bin f b = .ok ⟨u, fun idx => f (a.bget idx) (b.bget idx)⟩ := by rw [Arr.bin, h]; rfl

end Probnum.RandVars
