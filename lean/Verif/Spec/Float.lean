import Verif.Model.Float

/-!
# Specification: accurate floating-point arithmetic, and the growth of the coefficients
-/

namespace Verif.Spec
open Verif.Model

/-- What is assumed of a floating-point arithmetic, with the unit roundoff `u` (2^-53 for double precision): the operations and conversions have the
relative error `u` (an absolute error `u` below 1, so that underflow is included), `sqrt` too; powers of numbers in `[0, 1]` and the trigonometric
functions have an error of `(1+u)^p - 1`, about `p` times `u`. -/
structure Accurate (F : FloatArith) (u : ℝ) (p : ℕ) : Prop where
  unit : 0 ≤ u
  small : u ≤ 1
  fl : ∀ x, |F.fl x - x| ≤ u * max |x| 1
  sqrt : ∀ x, 0 ≤ x → |F.sqrt x - Real.sqrt x| ≤ u * max (Real.sqrt x) 1
  pow : ∀ x k, 0 ≤ x → x ≤ 1 → |F.pow x k - x ^ k| ≤ (1 + u) ^ p - 1
  cos : ∀ x, |F.cos x - Real.cos x| ≤ (1 + u) ^ p - 1
  sin : ∀ x, |F.sin x - Real.sin x| ≤ (1 + u) ^ p - 1

/-- A bound of the sum of the absolute values of the coefficients of the radial polynomials of the order `n`: 1, 1, 3, 7, 17, 41, ...
(half of `(1+√2)^n + (1-√2)^n`). -/
def growth : ℕ → ℕ
  | 0 => 1
  | 1 => 1
  | n + 2 => 2 * growth (n + 1) + growth n

end Verif.Spec

namespace Verif.Spec
open Verif.Model

/-- An arithmetic that is exact on small integers, and whose powers of 0 and 1 are exact. -/
structure ExactOnIntegers (F : FloatArith) : Prop where
  fl : ∀ a : ℤ, |a| < 2 ^ 53 → F.fl a = a
  one_pow : ∀ k, F.pow 1 k = 1
  zero_pow : ∀ k, F.pow 0 k = 0 ^ k

end Verif.Spec
