import Verif.Zoo.SombreroLemmas

/-!
# The value of the integral of the function `hennig1d`

The integrand is `exp (-1/2) exp (-x²) exp (cos (6 x) / 2)`; the last factor is replaced by a polynomial in `cos (6 x)`, hence a
trigonometric polynomial, and the integrals of `exp (-x²) cos (6 k x)` by those of products of Taylor polynomials.
-/

namespace Probnum.Zoo

open Finset MeasureTheory

/-! ## Sums of natural numbers, in a form that the kernel evaluates fast -/

def sumN (f : ℕ → ℕ) (n : ℕ) : ℕ := Nat.rec 0 (fun n s => Nat.add s (f n)) n

theorem sumN_eq (f : ℕ → ℕ) (n : ℕ) : sumN f n = ∑ i ∈ range n, f i := by
  induction n with
  | zero => rfl
  | succ n ih => rw [sum_range_succ, ← ih]; rfl

def facN (n : ℕ) : ℕ := Nat.rec 1 (fun n s => Nat.mul (Nat.succ n) s) n

theorem facN_eq (n : ℕ) : facN n = n.factorial := by
  induction n with
  | zero => rfl
  | succ n ih => rw [Nat.factorial_succ, ← ih]; rfl

/-- `9^j J! / j!`. -/
def expNum (J j : ℕ) : ℕ := Nat.mul (Nat.pow 9 j) (Nat.div (facN J) (facN j))

/-- `y^(2l) (2L)! / (2l)!`. -/
def cosNum (L y l : ℕ) : ℕ := Nat.mul (Nat.pow y (Nat.mul 2 l)) (Nat.div (facN (Nat.mul 2 L)) (facN (Nat.mul 2 l)))

/-- The common denominator of the integrals of the monomials. -/
def monoDen (J L : ℕ) : ℕ := facN (Nat.mul 2 (Nat.add J L))

/-- The terms with an even (`r = 0`) or an odd (`r = 1`) exponent in the integral of the product of the Taylor polynomials. -/
def convNum (J L y r : ℕ) : ℕ := sumN (fun j => sumN (fun l =>
  cond (Nat.beq (Nat.mod (Nat.add j l) 2) r)
    (Nat.mul (Nat.mul (expNum J j) (cosNum L y l)) (Nat.div (monoDen J L) (Nat.add (Nat.mul 2 (Nat.add j l)) 1))) 0) L) J

def convDen (J L : ℕ) : ℕ := Nat.mul (Nat.mul (facN J) (facN (Nat.mul 2 L))) (monoDen J L)

def pow10 (n : ℕ) : ℕ := Nat.pow 10 n

/-- The check made by the kernel: the integral of the product of the Taylor polynomials is `(gp - gm) 1e-20` up to `1e-20`, and
the first terms left out are small. -/
def convCheck (J L y gp gm : ℕ) : Bool :=
  Nat.ble (Nat.add (Nat.mul (Nat.mul 6 (convNum J L y 0)) (pow10 20)) (Nat.mul gm (convDen J L)))
      (Nat.add (Nat.add (Nat.mul (Nat.mul 6 (convNum J L y 1)) (pow10 20)) (Nat.mul gp (convDen J L))) (convDen J L)) &&
    Nat.ble (Nat.add (Nat.mul (Nat.mul 6 (convNum J L y 1)) (pow10 20)) (Nat.mul gp (convDen J L)))
      (Nat.add (Nat.add (Nat.mul (Nat.mul 6 (convNum J L y 0)) (pow10 20)) (Nat.mul gm (convDen J L))) (convDen J L)) &&
    Nat.ble (Nat.mul (Nat.pow 9 J) (pow10 16)) (facN J) &&
    Nat.ble (Nat.mul (Nat.pow y (Nat.mul 2 L)) (pow10 16)) (facN (Nat.mul 2 L))

set_option maxRecDepth 100000

theorem convCheck_0 : convCheck 52 1 0 177241469651904246776 0 = true := by decide +kernel
theorem convCheck_1 : convCheck 52 39 18 18982679079885969 0 = true := by decide +kernel
theorem convCheck_2 : convCheck 52 64 36 0 1527148508623408 = true := by decide +kernel
theorem convCheck_3 : convCheck 52 89 54 0 345715735628415 = true := by decide +kernel
theorem convCheck_4 : convCheck 52 114 72 482497001498289 0 = true := by decide +kernel
theorem convCheck_5 : convCheck 52 138 90 779843119538779 0 = true := by decide +kernel
theorem convCheck_6 : convCheck 52 163 108 577161243336396 0 = true := by decide +kernel
theorem convCheck_7 : convCheck 52 188 126 112322713862157 0 = true := by decide +kernel
theorem convCheck_8 : convCheck 52 212 144 0 304073842501922 = true := by decide +kernel
theorem convCheck_9 : convCheck 52 237 162 0 452434144596301 = true := by decide +kernel
theorem convCheck_10 : convCheck 52 261 180 0 302061902793028 = true := by decide +kernel
theorem convCheck_11 : convCheck 52 286 198 4128090298353 0 = true := by decide +kernel
theorem convCheck_12 : convCheck 52 310 216 257447647327750 0 = true := by decide +kernel
theorem convCheck_13 : convCheck 52 334 234 313124150252746 0 = true := by decide +kernel

end Probnum.Zoo
