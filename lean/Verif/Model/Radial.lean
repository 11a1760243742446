import Verif.Model.Index
import Mathlib.Algebra.Ring.Basic
import Mathlib.Data.Nat.Factorial.Basic
import Mathlib.Algebra.Algebra.Basic
import Mathlib.Algebra.Algebra.Rat

/-!
# Model of `calculations/calc_zernike_pol.py`: radial polynomials and their derivatives by tables and recurrences

The functions are evaluated at one point `r` of a type of numbers `α`: a commutative ring for exact arithmetic, `Fl` (Verif.Model.Float) for
rounded arithmetic (the code evaluates elementwise on a `float` or a
`numpy` array; `np.power(r, k)` is `r ^ k`, a float literal is the number). Recursion takes `fuel`, the number of nested calls that
Python's recursion limit still allows; running out of it is `RecursionError`.
-/

namespace Verif.Model

section
variable {α : Type} [Zero α] [One α] [Add α] [Sub α] [Mul α] [NatCast α] [IntCast α] [Pow α ℕ]

/-- The analytical table of `radial_polynomial` (`if`/`elif` chain up to the 10th order),
/repo/src/zernpy/calculations/calc_zernike_pol.py:107-195. `none`: no entry of the table applies. -/
def radialTable (m n : Int) (r : α) : Option α :=
  if m = 0 ∧ n = 0 then some (1)
  else if (m = -1 ∧ n = 1) ∨ (m = 1 ∧ n = 1) then some (r)
  else if (m = -2 ∧ n = 2) ∨ (m = 2 ∧ n = 2) then some (r ^ 2)
  else if m = 0 ∧ n = 2 then some (2 * r ^ 2 - 1)
  else if (m = -3 ∧ n = 3) ∨ (m = 3 ∧ n = 3) then some (r ^ 3)
  else if (m = -1 ∧ n = 3) ∨ (m = 1 ∧ n = 3) then some (3 * r ^ 3 - 2 * r)
  else if (m = -4 ∧ n = 4) ∨ (m = 4 ∧ n = 4) then some (r ^ 4)
  else if (m = -2 ∧ n = 4) ∨ (m = 2 ∧ n = 4) then some (4 * r ^ 4 - 3 * r ^ 2)
  else if m = 0 ∧ n = 4 then some (6 * r ^ 4 - 6 * r ^ 2 + 1)
  else if (m = -5 ∧ n = 5) ∨ (m = 5 ∧ n = 5) then some (r ^ 5)
  else if (m = -3 ∧ n = 5) ∨ (m = 3 ∧ n = 5) then some (5 * r ^ 5 - 4 * r ^ 3)
  else if (m = -1 ∧ n = 5) ∨ (m = 1 ∧ n = 5) then some (10 * r ^ 5 - 12 * r ^ 3 + 3 * r)
  else if (m = -6 ∧ n = 6) ∨ (m = 6 ∧ n = 6) then some (r ^ 6)
  else if (m = -4 ∧ n = 6) ∨ (m = 4 ∧ n = 6) then some (6 * r ^ 6 - 5 * r ^ 4)
  else if (m = -2 ∧ n = 6) ∨ (m = 2 ∧ n = 6) then some (15 * r ^ 6 - 20 * r ^ 4 + 6 * r ^ 2)
  else if m = 0 ∧ n = 6 then some (20 * r ^ 6 - 30 * r ^ 4 + 12 * r ^ 2 - 1)
  else if (m = -7 ∧ n = 7) ∨ (m = 7 ∧ n = 7) then some (r ^ 7)
  else if (m = -5 ∧ n = 7) ∨ (m = 5 ∧ n = 7) then some (7 * r ^ 7 - 6 * r ^ 5)
  else if (m = -3 ∧ n = 7) ∨ (m = 3 ∧ n = 7) then some (21 * r ^ 7 - 30 * r ^ 5 + 10 * r ^ 3)
  else if (m = -1 ∧ n = 7) ∨ (m = 1 ∧ n = 7) then some (35 * r ^ 7 - 60 * r ^ 5 + 30 * r ^ 3 - 4 * r)
  else if (m = -6 ∧ n = 8) ∨ (m = 6 ∧ n = 8) then some (8 * r ^ 8 - 7 * r ^ 6)
  else if (m = -4 ∧ n = 8) ∨ (m = 4 ∧ n = 8) then some (28 * r ^ 8 - 42 * r ^ 6 + 15 * r ^ 4)
  else if (m = -2 ∧ n = 8) ∨ (m = 2 ∧ n = 8) then some (56 * r ^ 8 - 105 * r ^ 6 + 60 * r ^ 4 - 10 * r ^ 2)
  else if m = 0 ∧ n = 8 then some (70 * r ^ 8 - 140 * r ^ 6 + 90 * r ^ 4 - 20 * r ^ 2 + 1)
  else if (m = -7 ∧ n = 9) ∨ (m = 7 ∧ n = 9) then some (9 * r ^ 9 - 8 * r ^ 7)
  else if (m = -5 ∧ n = 9) ∨ (m = 5 ∧ n = 9) then some (36 * r ^ 9 - 56 * r ^ 7 + 21 * r ^ 5)
  else if (m = -3 ∧ n = 9) ∨ (m = 3 ∧ n = 9) then some (84 * r ^ 9 - 168 * r ^ 7 + 105 * r ^ 5 - 20 * r ^ 3)
  else if (m = -1 ∧ n = 9) ∨ (m = 1 ∧ n = 9) then some (126 * r ^ 9 - 280 * r ^ 7 + 210 * r ^ 5 - 60 * r ^ 3 + 5 * r)
  else if (m = -8 ∧ n = 10) ∨ (m = 8 ∧ n = 10) then some (10 * r ^ 10 - 9 * r ^ 8)
  else if (m = -6 ∧ n = 10) ∨ (m = 6 ∧ n = 10) then some (45 * r ^ 10 - 72 * r ^ 8 + 28 * r ^ 6)
  else if (m = -4 ∧ n = 10) ∨ (m = 4 ∧ n = 10) then some (120 * r ^ 10 - 252 * r ^ 8 + 168 * r ^ 6 - 35 * r ^ 4)
  else if (m = -2 ∧ n = 10) ∨ (m = 2 ∧ n = 10) then some (210 * r ^ 10 - 504 * r ^ 8 + 420 * r ^ 6 - 140 * r ^ 4 + 15 * r ^ 2)
  else if m = 0 ∧ n = 10 then some (252 * r ^ 10 - 630 * r ^ 8 + 560 * r ^ 6 - 210 * r ^ 4 + 30 * r ^ 2 - 1)
  else none

/-- The analytical table of `radial_derivative` (`if`/`elif` chain up to the 10th order),
/repo/src/zernpy/calculations/calc_zernike_pol.py:225-314. `none`: no entry of the table applies. -/
def radialDerivTable (m n : Int) (r : α) : Option α :=
  if m = 0 ∧ n = 0 then some (0)
  else if (m = -1 ∧ n = 1) ∨ (m = 1 ∧ n = 1) then some (1)
  else if (m = -2 ∧ n = 2) ∨ (m = 2 ∧ n = 2) then some (2 * r)
  else if m = 0 ∧ n = 2 then some (4 * r)
  else if (m = -3 ∧ n = 3) ∨ (m = 3 ∧ n = 3) then some (3 * r ^ 2)
  else if (m = -1 ∧ n = 3) ∨ (m = 1 ∧ n = 3) then some (9 * r ^ 2 - 2)
  else if (m = -4 ∧ n = 4) ∨ (m = 4 ∧ n = 4) then some (4 * r ^ 3)
  else if (m = -2 ∧ n = 4) ∨ (m = 2 ∧ n = 4) then some (16 * r ^ 3 - 6 * r)
  else if m = 0 ∧ n = 4 then some (24 * r ^ 3 - 12 * r)
  else if (m = -5 ∧ n = 5) ∨ (m = 5 ∧ n = 5) then some (5 * r ^ 4)
  else if (m = -3 ∧ n = 5) ∨ (m = 3 ∧ n = 5) then some (25 * r ^ 4 - 12 * r ^ 2)
  else if (m = -1 ∧ n = 5) ∨ (m = 1 ∧ n = 5) then some (50 * r ^ 4 - 36 * r ^ 2 + 3)
  else if (m = -6 ∧ n = 6) ∨ (m = 6 ∧ n = 6) then some (6 * r ^ 5)
  else if (m = -4 ∧ n = 6) ∨ (m = 4 ∧ n = 6) then some (36 * r ^ 5 - 20 * r ^ 3)
  else if (m = -2 ∧ n = 6) ∨ (m = 2 ∧ n = 6) then some (90 * r ^ 5 - 80 * r ^ 3 + 12 * r)
  else if m = 0 ∧ n = 6 then some (120 * r ^ 5 - 120 * r ^ 3 + 24 * r)
  else if (m = -7 ∧ n = 7) ∨ (m = 7 ∧ n = 7) then some (7 * r ^ 6)
  else if (m = -5 ∧ n = 7) ∨ (m = 5 ∧ n = 7) then some (49 * r ^ 6 - 30 * r ^ 4)
  else if (m = -3 ∧ n = 7) ∨ (m = 3 ∧ n = 7) then some (147 * r ^ 6 - 150 * r ^ 4 + 30 * r ^ 2)
  else if (m = -1 ∧ n = 7) ∨ (m = 1 ∧ n = 7) then some (245 * r ^ 6 - 300 * r ^ 4 + 90 * r ^ 2 - 4)
  else if (m = -6 ∧ n = 8) ∨ (m = 6 ∧ n = 8) then some (64 * r ^ 7 - 42 * r ^ 5)
  else if (m = -4 ∧ n = 8) ∨ (m = 4 ∧ n = 8) then some (224 * r ^ 7 - 252 * r ^ 5 + 60 * r ^ 3)
  else if (m = -2 ∧ n = 8) ∨ (m = 2 ∧ n = 8) then some (448 * r ^ 7 - 630 * r ^ 5 + 240 * r ^ 3 - 20 * r)
  else if m = 0 ∧ n = 8 then some (560 * r ^ 7 - 840 * r ^ 5 + 360 * r ^ 3 - 40 * r)
  else if (m = -5 ∧ n = 9) ∨ (m = 5 ∧ n = 9) then some (324 * r ^ 8 - 392 * r ^ 6 + 105 * r ^ 4)
  else if (m = -3 ∧ n = 9) ∨ (m = 3 ∧ n = 9) then some (756 * r ^ 8 - 1176 * r ^ 6 + 525 * r ^ 4 - 60 * r ^ 2)
  else if (m = -1 ∧ n = 9) ∨ (m = 1 ∧ n = 9) then some (1134 * r ^ 8 - 1960 * r ^ 6 + 1050 * r ^ 4 - 180 * r ^ 2 + 5)
  else if (m = -6 ∧ n = 10) ∨ (m = 6 ∧ n = 10) then some (450 * r ^ 9 - 576 * r ^ 7 + 168 * r ^ 5)
  else if (m = -4 ∧ n = 10) ∨ (m = 4 ∧ n = 10) then some (1200 * r ^ 9 - 2016 * r ^ 7 + 1008 * r ^ 5 - 140 * r ^ 3)
  else if (m = -2 ∧ n = 10) ∨ (m = 2 ∧ n = 10) then some (2100 * r ^ 9 - 4032 * r ^ 7 + 2520 * r ^ 5 - 560 * r ^ 3 + 30 * r)
  else if m = 0 ∧ n = 10 then some (2520 * r ^ 9 - 5040 * r ^ 7 + 3360 * r ^ 5 - 840 * r ^ 3 + 60 * r)
  else none

/-- `radial_polynomial`, /repo/src/zernpy/calculations/calc_zernike_pol.py:83-205. -/
def radialPolynomial : Nat → Int → Int → α → Res α
  | 0, _, _, _ => .error .recursionError
  | fuel + 1, m, n, r =>
    match radialTable m n r with
    | some v => .ok v
    | none =>
      if n > 7 ∧ pyAbs m = n then .ok (r ^ n.toNat)
      else if n > 10 ∧ m = 0 then do
        let x ← radialPolynomial fuel 1 (n - 1) r
        let y ← radialPolynomial fuel 0 (n - 2) r
        pure (2 * r * x - y)
      else if n > 10 ∧ pyAbs m = n - 2 then
        .ok ((n : α) * r ^ n.toNat - ((n - 1 : Int) : α) * r ^ (n - 2).toNat)
      else do
        let x ← radialPolynomial fuel (pyAbs (m - 1)) (n - 1) r
        let y ← radialPolynomial fuel (m + 1) (n - 1) r
        let z ← radialPolynomial fuel m (n - 2) r
        pure (r * (x + y) - z)

/-- `radial_derivative`, /repo/src/zernpy/calculations/calc_zernike_pol.py:208-327. -/
def radialDerivative : Nat → Int → Int → α → Res α
  | 0, _, _, _ => .error .recursionError
  | fuel + 1, m, n, r =>
    match radialDerivTable m n r with
    | some v => .ok v
    | none =>
      if n > 7 ∧ pyAbs m = n then .ok ((n : α) * r ^ (n - 1).toNat)
      else if n > 8 ∧ pyAbs m = n - 2 then
        .ok ((n : α) * (n : α) * r ^ (n - 1).toNat -
          ((n - 1 : Int) : α) * ((n - 2 : Int) : α) * r ^ (n - 3).toNat)
      else if n > 10 ∧ m = 0 then do
        let x ← radialPolynomial fuel 1 (n - 1) r
        let dx ← radialDerivative fuel 1 (n - 1) r
        let dz ← radialDerivative fuel 0 (n - 2) r
        pure (2 * (x + r * dx) - dz)
      else do
        let x ← radialPolynomial fuel (pyAbs (m - 1)) (n - 1) r
        let y ← radialPolynomial fuel (m + 1) (n - 1) r
        let dx ← radialDerivative fuel (pyAbs (m - 1)) (n - 1) r
        let dy ← radialDerivative fuel (m + 1) (n - 1) r
        let dz ← radialDerivative fuel m (n - 2) r
        pure ((x + y) + r * (dx + dy) - dz)

end

/-- `math.factorial`: `ValueError` on negative integers, /repo/src/zernpy/calculations/calc_zernike_pol.py:358-360. -/
def pyFactorial (i : Int) : Res Int := if i < 0 then .error .valueError else .ok (i.toNat.factorial : Int)

/-- Quotients of integers as numbers of the type, /repo/src/zernpy/calculations/calc_zernike_pol.py:107-205. -/
class OfRat (α : Type) where
  ofRat : ℚ → α

/-- Quotients of integers in a field and in arrays, /repo/src/zernpy/calculations/calc_zernike_pol.py:107-205. -/
instance {α : Type} [CommRing α] [Algebra ℚ α] : OfRat α := ⟨algebraMap ℚ α⟩

section
variable {α : Type} [Zero α] [One α] [Add α] [Sub α] [Mul α] [NatCast α] [IntCast α] [Pow α ℕ] [OfRat α]

/-- A Python float scalar multiplying a value: the quotient of two integers, /repo/src/zernpy/calculations/calc_zernike_pol.py:107-205. -/
def scal (q : ℚ) : α := OfRat.ofRat q

/-- The summation loop of `radial_polynomial_eq`,
/repo/src/zernpy/calculations/calc_zernike_pol.py:356-361: `j` iterations remain, `k` is the loop variable. -/
def radialEqLoop (m n : Int) (r : α) : Nat → Int → α → Res α
  | 0, _, value => .ok value
  | j + 1, k, value => do
    let a := (n + m) / 2
    let b := (n - m) / 2
    let f0 ← pyFactorial (n - k)
    let f1 ← pyFactorial k
    let f2 ← pyFactorial (a - k)
    let f3 ← pyFactorial (b - k)
    radialEqLoop m n r j (k + 1)
      (value + (((-1) ^ k.toNat : Int) : α) * (scal ((f0 : ℚ) / ((f1 * f2 * f3 : Int) : ℚ)) * r ^ (n - 2 * k).toNat))

/-- `radial_polynomial_eq`, /repo/src/zernpy/calculations/calc_zernike_pol.py:330-362. -/
def radialPolynomialEq (m n : Int) (r : α) : Res α :=
  radialEqLoop m n r ((n - pyAbs m) / 2 + 1).toNat 0 0

/-- The summation loop of `radial_derivative_eq`,
/repo/src/zernpy/calculations/calc_zernike_pol.py:388-394. -/
def radialDerivEqLoop (m n : Int) (r : α) : Nat → Int → α → Res α
  | 0, _, value => .ok value
  | j + 1, k, value => do
    let a := (n + m) / 2
    let b := (n - m) / 2
    if n - 2 * k > 0 then
      let f0 ← pyFactorial (n - k)
      let f1 ← pyFactorial k
      let f2 ← pyFactorial (a - k)
      let f3 ← pyFactorial (b - k)
      radialDerivEqLoop m n r j (k + 1)
        (value + (((-1) ^ k.toNat : Int) : α) * (scal ((f0 : ℚ) / ((f1 * f2 * f3 : Int) : ℚ)) * r ^ (n - 2 * k - 1).toNat) *
          ((n - 2 * k : Int) : α))
    else radialDerivEqLoop m n r j (k + 1) value

/-- `radial_derivative_eq`, /repo/src/zernpy/calculations/calc_zernike_pol.py:365-395. -/
def radialDerivativeEq (m n : Int) (r : α) : Res α :=
  if n > 0 then radialDerivEqLoop m n r ((n - pyAbs m) / 2 + 1).toNat 0 0 else .ok 0

end

end Verif.Model
