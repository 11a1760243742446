import Verif.Model.Methods
import Verif.Model.Numeric
import Mathlib.Data.Int.Log

/-!
# Model of the evaluation in floating-point arithmetic

The functions of Verif.Model.Radial, Verif.Model.Coeffs and Verif.Model.Methods are written for any type of numbers; here they run on numbers that
are rounded after each operation. Which values the roundings give is a parameter; what is assumed of it is the predicate `Accurate`.
-/

namespace Verif.Model

/-- A floating-point arithmetic: `fl x` is the number that an operation with the exact result `x` returns (`+`, `-`, `*`, the conversion of an
`int`, the true division of two `int`s), `pow r k` is `numpy.power(r, k)`, and `numpy.sqrt`, `numpy.cos`, `numpy.sin`, the arithmetic of Python and numpy in /repo/src/zernpy/calculations/calc_zernike_pol.py:107-559. -/
structure FloatArith where
  fl : ℝ → ℝ
  pow : ℝ → ℕ → ℝ
  sqrt : ℝ → ℝ
  cos : ℝ → ℝ
  sin : ℝ → ℝ

/-- A number of the arithmetic `F`, numbers in /repo/src/zernpy/calculations/calc_zernike_pol.py:107-559. -/
structure Fl (F : FloatArith) where
  val : ℝ

namespace Fl
variable {F : FloatArith}

/-- The constant `0.0`, /repo/src/zernpy/calculations/calc_zernike_pol.py:107-559. -/
instance : Zero (Fl F) := ⟨⟨0⟩⟩
/-- The constant `1.0`, /repo/src/zernpy/calculations/calc_zernike_pol.py:107-559. -/
instance : One (Fl F) := ⟨⟨1⟩⟩
/-- An operation of the arithmetic, /repo/src/zernpy/calculations/calc_zernike_pol.py:107-559. -/
instance : Add (Fl F) := ⟨fun x y => ⟨F.fl (x.val + y.val)⟩⟩
/-- An operation of the arithmetic, /repo/src/zernpy/calculations/calc_zernike_pol.py:107-559. -/
instance : Sub (Fl F) := ⟨fun x y => ⟨F.fl (x.val - y.val)⟩⟩
/-- An operation of the arithmetic, /repo/src/zernpy/calculations/calc_zernike_pol.py:107-559. -/
instance : Mul (Fl F) := ⟨fun x y => ⟨F.fl (x.val * y.val)⟩⟩
/-- The negative of a number is a number, /repo/src/zernpy/calculations/calc_zernike_pol.py:107-559. -/
instance : Neg (Fl F) := ⟨fun x => ⟨-x.val⟩⟩
/-- An operation of the arithmetic, /repo/src/zernpy/calculations/calc_zernike_pol.py:107-559. -/
instance : NatCast (Fl F) := ⟨fun n => ⟨F.fl n⟩⟩
/-- An operation of the arithmetic, /repo/src/zernpy/calculations/calc_zernike_pol.py:107-559. -/
instance : IntCast (Fl F) := ⟨fun n => ⟨F.fl n⟩⟩
/-- An operation of the arithmetic, /repo/src/zernpy/calculations/calc_zernike_pol.py:107-559. -/
instance : Pow (Fl F) ℕ := ⟨fun x k => ⟨F.pow x.val k⟩⟩
/-- An operation of the arithmetic, /repo/src/zernpy/calculations/calc_zernike_pol.py:107-559. -/
noncomputable instance : OfRat (Fl F) := ⟨fun q => ⟨F.fl q⟩⟩
end Fl

/-- `normalization_factor`, /repo/src/zernpy/calculations/calc_zernike_pol.py:56-80, in the arithmetic `F`. -/
def normalizationFl (F : FloatArith) (m n : Int) : Fl F :=
  if m = 0 then ⟨F.sqrt ((n + 1 : Int) : Fl F).val⟩ else ⟨F.sqrt ((2 * (n + 1) : Int) : Fl F).val⟩

/-- `triangular_function`, /repo/src/zernpy/calculations/calc_zernike_pol.py:398-426, in the arithmetic `F`. -/
def triangularFl (F : FloatArith) (m : Int) (theta : Fl F) : Fl F :=
  if m ≥ 0 then ⟨F.cos ((m : Fl F) * theta).val⟩ else -⟨F.sin ((m : Fl F) * theta).val⟩

/-- The radial part of `radial`, for a `float` in the accepted range, /repo/src/zernpy/zernikepol.py:474-493, in the arithmetic `F`. -/
noncomputable def radialFl (F : FloatArith) (fuel : Nat) (exact : Bool) (m n : Int) (r : Fl F) : CM (Fl F) := radialValue fuel exact m n r

/-- `radial_dr`, for a `float` in the accepted range, /repo/src/zernpy/zernikepol.py:566-585, in the arithmetic `F`. -/
noncomputable def radialDrFl (F : FloatArith) (fuel : Nat) (exact : Bool) (m n : Int) (r : Fl F) : CM (Fl F) := radialDrValue fuel exact m n r

/-- `polynomial_value`, for two `float`s in the accepted range, /repo/src/zernpy/zernikepol.py:408-428, in the arithmetic `F`. -/
noncomputable def polynomialFl (F : FloatArith) (fuel : Nat) (exact : Bool) (m n : Int) (r theta : Fl F) : CM (Fl F) :=
  if exact ∧ n > maxRadialOrderCoeffs then pure 0
  else do
    let v ← radialFl F fuel exact m n r
    pure (normalizationFl F m n * triangularFl F m theta * v)

open Classical in
/-- Rounding to binary64 (53 significant bits, smallest positive number 2^-1074), to nearest, ties to even. The exponent is not bounded above:
the values that occur here are far below the greatest number, numbers in /repo/src/zernpy/calculations/calc_zernike_pol.py:107-559. -/
noncomputable def binary64 (x : ℝ) : ℝ :=
  if x = 0 then 0
  else rint (x / 2 ^ max (Int.log 2 |x| - 52) (-1074)) * 2 ^ max (Int.log 2 |x| - 52) (-1074)

/-- Double precision with correctly rounded functions, numbers in /repo/src/zernpy/calculations/calc_zernike_pol.py:107-559. -/
noncomputable def doubles : FloatArith where
  fl := binary64
  pow x k := binary64 (x ^ k)
  sqrt x := binary64 (Real.sqrt x)
  cos x := binary64 (Real.cos x)
  sin x := binary64 (Real.sin x)

end Verif.Model
