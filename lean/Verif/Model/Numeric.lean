import Mathlib.Analysis.SpecialFunctions.Complex.Arg
import Mathlib.Algebra.Order.Floor.Ring

/-!
# Library functions on numbers: rounding, `arctan2`
-/

namespace Verif.Model

open Classical in
/-- `numpy.rint` / Python's `round(x)`: to the nearest integer, ties to the even one, /repo/src/zernpy/calculations/calc_psfs.py:323-331,/repo/src/zernpy/calculations/calc_psfs.py:864-887. -/
noncomputable def rint (x : ℝ) : ℤ :=
  if x - ⌊x⌋ < 1 / 2 then ⌊x⌋ else if x - ⌊x⌋ > 1 / 2 then ⌊x⌋ + 1 else if ⌊x⌋ % 2 = 0 then ⌊x⌋ else ⌊x⌋ + 1

/-- `numpy.round(x, decimals)`, in exact arithmetic, /repo/src/zernpy/calculations/fit_zernike_pols.py:62,/repo/src/zernpy/calculations/fit_zernike_pols.py:123,/repo/src/zernpy/calculations/fit_zernike_pols.py:144-148,/repo/src/zernpy/zernikepol.py:1416,/repo/src/zernpy/zernikepol.py:1547. -/
noncomputable def npRound (decimals : ℤ) (x : ℝ) : ℝ := (rint (x * 10 ^ decimals) : ℝ) / 10 ^ decimals

/-- `numpy.arctan2(y, x)`, in `(-π, π]`, 0 at the origin, /repo/src/zernpy/calculations/fit_zernike_pols.py:124,/repo/src/zernpy/zernikepol.py:1439,/repo/src/zernpy/zernikepol.py:1490,/repo/src/zernpy/calculations/calc_psfs.py:432,/repo/src/zernpy/calculations/calc_psfs.py:681. -/
noncomputable def arctan2 (y x : ℝ) : ℝ := Complex.arg ⟨x, y⟩

end Verif.Model
