import Verif.Zoo.HennigNumbers

/-!
# Numbers for the value of the integral of the function `hennig2d`

Complex numbers with integer parts, in a form that the kernel evaluates fast.
-/

namespace Probnum.Zoo

/-- A complex number with integer parts. -/
structure GI where
  re : ℤ
  im : ℤ

namespace GI

def add (a b : GI) : GI := ⟨Int.add a.re b.re, Int.add a.im b.im⟩
def sub (a b : GI) : GI := ⟨Int.sub a.re b.re, Int.sub a.im b.im⟩
def mul (a b : GI) : GI :=
  ⟨Int.sub (Int.mul a.re b.re) (Int.mul a.im b.im), Int.add (Int.mul a.re b.im) (Int.mul a.im b.re)⟩
def smul (n : ℕ) (a : GI) : GI := ⟨Int.mul (Int.ofNat n) a.re, Int.mul (Int.ofNat n) a.im⟩
def ofNat (n : ℕ) : GI := ⟨Int.ofNat n, Int.ofNat 0⟩

end GI

/-- `∑ n < m, c (N - m + n) β ^ n` after `m` steps. -/
def hornerSteps (c : ℕ → ℕ) (β : GI) (N m : ℕ) : GI :=
  Nat.rec ⟨Int.ofNat 0, Int.ofNat 0⟩ (fun i s => GI.add (GI.ofNat (c (Nat.sub (Nat.sub N i) 1))) (GI.mul β s)) m

/-- `N! / n!`. -/
def expCoef (N n : ℕ) : ℕ := Nat.div (facN N) (facN n)

/-- `N! / n! (2N)! / (2n + 1)`. -/
def gaussCoef (N n : ℕ) : ℕ := Nat.mul (Nat.div (facN N) (facN n)) (Nat.div (facN (Nat.mul 2 N)) (Nat.add (Nat.mul 2 n) 1))

/-- `-9 + 27 k i`. -/
def betaGI (k : ℕ) : GI := ⟨Int.negSucc 8, Int.ofNat (Nat.mul 27 k)⟩

/-- `|6 z - v| ≤ d` for a scaled value `v`. -/
def closeTo (z v : ℤ) (d : ℕ) : Bool := Nat.ble (Int.natAbs (Int.sub z v)) d

/-- `a / b` is `v 1e-30` up to `1e-30`. -/
def ratioCheck (a : ℤ) (b : ℕ) (v : ℤ) : Bool := closeTo (Int.mul a (Int.ofNat (pow10 30))) (Int.mul v (Int.ofNat b)) b

/-- The check made by the kernel for the Taylor polynomials with `N` terms. -/
def hennigCheck (k N : ℕ) (h e : GI) : Bool :=
  ratioCheck (hornerSteps (expCoef N) (betaGI k) N N).re (facN N) e.re &&
    ratioCheck (hornerSteps (expCoef N) (betaGI k) N N).im (facN N) e.im &&
    ratioCheck (Int.mul (Int.ofNat 6) (hornerSteps (gaussCoef N) (betaGI k) N N).re) (Nat.mul (facN N) (facN (Nat.mul 2 N))) h.re &&
    ratioCheck (Int.mul (Int.ofNat 6) (hornerSteps (gaussCoef N) (betaGI k) N N).im) (Nat.mul (facN N) (facN (Nat.mul 2 N))) h.im &&
    Nat.ble (Nat.mul 2 (Nat.add (Nat.mul 27 k) 9)) (Nat.succ N) &&
    Nat.ble (Nat.mul (Nat.pow (Nat.add (Nat.mul 27 k) 9) N) (pow10 30)) (facN N)

/-- `2 (1 + 9 k²)`. -/
def modNum (k : ℕ) : ℕ := Nat.mul 2 (Nat.add 1 (Nat.mul 9 (Nat.mul k k)))

/-- The approximate moments `∫ x^(2r) exp (-(1 - 3 k i) x²)` over `[-3, 3]`, times `1e30 (2 (1 + 9 k²))^r`. -/
def momentGI (k : ℕ) (h e : GI) (r : ℕ) : GI :=
  Nat.rec h (fun r s => GI.mul ⟨Int.ofNat 1, Int.ofNat (Nat.mul 3 k)⟩
    (GI.sub (GI.smul (Nat.add (Nat.mul 2 r) 1) s)
      (GI.smul (Nat.mul (Nat.mul 2 (Nat.pow 3 (Nat.add (Nat.mul 2 r) 1))) (Nat.pow (modNum k) r)) e))) r

/-- The sum of the squares of the first `m` moments over `(2r)!`, times `1e60 (2 (1 + 9 k²))^(2R) (2R)!`. -/
def squaresGI (k : ℕ) (h e : GI) (R m : ℕ) : GI :=
  Nat.rec ⟨Int.ofNat 0, Int.ofNat 0⟩ (fun r s => GI.add s
    (GI.smul (Nat.mul (Nat.pow (modNum k) (Nat.mul 2 (Nat.sub R r))) (Nat.div (facN (Nat.mul 2 R)) (facN (Nat.mul 2 r))))
      (GI.mul (momentGI k h e r) (momentGI k h e r)))) m

def squaresDen (k R : ℕ) : ℕ := Nat.mul (Nat.mul (Nat.pow (modNum k) (Nat.mul 2 R)) (facN (Nat.mul 2 R))) (pow10 60)

/-- The sum is `v 1e-20` up to `1e-20`. -/
def squaresCheck (k R : ℕ) (h e v : GI) : Bool :=
  closeTo (Int.mul (squaresGI k h e R R).re (Int.ofNat (pow10 20))) (Int.mul v.re (Int.ofNat (squaresDen k R))) (squaresDen k R) &&
    closeTo (Int.mul (squaresGI k h e R R).im (Int.ofNat (pow10 20))) (Int.mul v.im (Int.ofNat (squaresDen k R))) (squaresDen k R)

set_option maxRecDepth 100000

def h2_0 : GI := ⟨1772414696519042467788969155824, 0⟩
def e2_0 : GI := ⟨123409804086679549497636691, 0⟩
theorem hennigCheck_0 : hennigCheck 0 67 h2_0 e2_0 = true := by decide +kernel
theorem squaresCheck_0 : squaresCheck 0 26 h2_0 e2_0 ⟨362588941280269881509, 0⟩ = true := by decide +kernel

def h2_1 : GI := ⟨808597512292045788808716380033, 582794265549747373925947926354⟩
def e2_1 : GI := ⟨-36052793151958673123896342, 118026165957615984229580878⟩
theorem hennigCheck_1 : hennigCheck 1 152 h2_1 e2_1 = true := by decide +kernel
theorem squaresCheck_1 : squaresCheck 1 26 h2_1 e2_1 ⟨30418802926341250828, 93543375578383997303⟩ = true := by decide +kernel

def h2_2 : GI := ⟨548350498158860084271582855061, 464531054748145587508418265262⟩
def e2_2 : GI := ⟨-102344964000798321260203253, -68960047044559968998270316⟩
theorem hennigCheck_2 : hennigCheck 2 229 h2_2 e2_2 = true := by decide +kernel
theorem squaresCheck_2 : squaresCheck 2 26 h2_2 e2_2 ⟨8407450694524196049, 50791907223995477364⟩ = true := by decide +kernel

def h2_3 : GI := ⟨438883395883997628233305487515, 392819161153321538163236349857⟩
def e2_3 : GI := ⟨95850664878159815952768622, -77734353969961882938451822⟩
theorem hennigCheck_3 : hennigCheck 3 304 h2_3 e2_3 = true := by decide +kernel
theorem squaresCheck_3 : squaresCheck 3 26 h2_3 e2_3 ⟨3814135153531720397, 34430468550885773422⟩ = true := by decide +kernel

def h2_4 : GI := ⟨375876174261546496538077464969, 345851675225879066487587820647⟩
def e2_4 : GI := ⟨46341565893094799435706817, 114378490177517998395424381⟩
theorem hennigCheck_4 : hennigCheck 4 378 h2_4 e2_4 = true := by decide +kernel
theorem squaresCheck_4 : squaresCheck 4 26 h2_4 e2_4 ⟨2161395935812314653, 25977771747179057676⟩ = true := by decide +kernel

def h2_5 : GI := ⟨333824103858674288676690942277, 312312469177266201824093688590⟩
def e2_5 : GI := ⟨-122927004587898392848779175, 10905562239492098368004587⟩
theorem hennigCheck_5 : hennigCheck 5 453 h2_5 e2_5 = true := by decide +kernel
theorem squaresCheck_5 : squaresCheck 5 26 h2_5 e2_5 ⟨1387621796501914769, 20840145672125128625⟩ = true := by decide +kernel

def h2_6 : GI := ⟨303255592281199545990368965696, 286877480403207014399170369449⟩
def e2_6 : GI := ⟨25481931469960106206874477, -120750366099953855241527220⟩
theorem hennigCheck_6 : hennigCheck 6 526 h2_6 e2_6 = true := by decide +kernel
theorem squaresCheck_6 : squaresCheck 6 26 h2_6 e2_6 ⟨965437775496438790, 17392820270812683471⟩ = true := by decide +kernel

def h2_7 : GI := ⟨279766831709962932058657022250, 266759041467077239941250267054⟩
def e2_7 : GI := ⟨108038482380155599199786691, 59646173973738135896511371⟩
theorem hennigCheck_7 : hennigCheck 7 600 h2_7 e2_7 = true := by decide +kernel
theorem squaresCheck_7 : squaresCheck 7 26 h2_7 e2_7 ⟨710313177572218223, 14921899129948596011⟩ = true := by decide +kernel

def h2_8 : GI := ⟨260990626482630128992266959012, 250342455069681199722032291556⟩
def e2_8 : GI := ⟨-88606398549860522711331309, 85900441679515848075516427⟩
theorem hennigCheck_8 : hennigCheck 8 674 h2_8 e2_8 = true := by decide +kernel
theorem squaresCheck_8 : squaresCheck 8 26 h2_8 e2_8 ⟨544111787408705647, 13064598142331143805⟩ = true := by decide +kernel

def h2_9 : GI := ⟨245537990146325223983782890298, 236614365297441785725130070717⟩
def e2_9 : GI := ⟨-56267746943052071417137755, -109835879377666397906328848⟩
theorem hennigCheck_9 : hennigCheck 9 748 h2_9 e2_9 = true := by decide +kernel
theorem squaresCheck_9 : squaresCheck 9 26 h2_9 e2_9 ⟨430036867856369280, 11617575744214892553⟩ = true := by decide +kernel

def h2_10 : GI := ⟨232538321396146770363894545974, 224915135537334194667586778473⟩
def e2_10 : GI := ⟨121482383674020893215347965, -21725795764266274227284226⟩
theorem hennigCheck_10 : hennigCheck 10 821 h2_10 e2_10 = true := by decide +kernel
theorem squaresCheck_10 : squaresCheck 10 26 h2_10 e2_10 ⟨348585332912209221, 10458836990383137095⟩ = true := by decide +kernel

def h2_11 : GI := ⟨221403920485745304306105394481, 214795246933180415269604917680⟩
def e2_11 : GI := ⟨-14711690754298517198972309, 122529775564401145124276225⟩
theorem hennigCheck_11 : hennigCheck 11 895 h2_11 e2_11 = true := by decide +kernel
theorem squaresCheck_11 : squaresCheck 11 26 h2_11 e2_11 ⟨288167407635167025, 9510218933197214455⟩ = true := by decide +kernel

def h2_12 : GI := ⟨211724643251388474463882009272, 205926548071951090383434875052⟩
def e2_12 : GI := ⟨-112886672051178171551613996, -49865609571350649463263338⟩
theorem hennigCheck_12 : hennigCheck 12 968 h2_12 e2_12 = true := by decide +kernel
theorem squaresCheck_12 : squaresCheck 12 26 h2_12 e2_12 ⟨242086157718121004, 8719103049605290174⟩ = true := by decide +kernel

end Probnum.Zoo
