import Verif.Model.Convolve
import Verif.Model.FloatKernelSize

/-!
# Model of the sample image in double precision

`get_bumped_circle` on doubles: every operation is rounded (`binary64`; `numpy.sqrt` is correctly rounded). `numpy.exp` and the eighth power are parameters; what is assumed
of them is `BumpAccurate` (and `BumpMonotone` for some statements).
-/

namespace Verif.Model

/-- `numpy.exp` and `pow(x, 8)`, /repo/src/zernpy/calculations/calc_psfs.py:881-882. -/
structure BumpArith where
  exp : ℝ → ℝ
  pow8 : ℝ → ℝ

/-- The distance of a pixel from the centre, /repo/src/zernpy/calculations/calc_psfs.py:864,874, in double precision; the powers and the sum of integers are exact. -/
noncomputable def bumpDistance64 (size i j : Nat) : ℝ :=
  binary64 ((rint (binary64 (sqrt64 (((((i : Int) - (size / 2 : Nat)) ^ 2 + ((j : Int) - (size / 2 : Nat)) ^ 2 : Int)) : ℝ) * 10 ^ 6)) : ℝ) / 10 ^ 6)

/-- `round(0.25*radius, 6)`, /repo/src/zernpy/calculations/calc_psfs.py:871, in double precision: Python's `round` returns the double nearest to the decimal number. -/
noncomputable def bumpInner64 (r : ℝ) : ℝ := binary64 (npRound 6 (binary64 (0.25 * r)))

open Classical in
/-- The relative intensity at a distance, /repo/src/zernpy/calculations/calc_psfs.py:871,875-882, in double precision; `r` is the radius (at least 1). -/
noncomputable def bumpValue64 (A : BumpArith) (r distance : ℝ) : ℝ :=
  if distance < bumpInner64 r then 1
  else if distance < binary64 (r * (1 + 0.25)) then
    let x := binary64 (distance / binary64 (r + 0.25))
    let b := A.pow8 (1 + 0.25)
    binary64 (binary64 (Real.exp 1) * A.exp (binary64 (b / binary64 (A.pow8 x - b))))
  else 0

open Classical in
/-- `get_bumped_circle`, /repo/src/zernpy/calculations/calc_psfs.py:844-888, in double precision. `overflow` is what `numpy` stores for an integer out of the range
of `uint8` / `uint16`. -/
noncomputable def getBumpedCircle64 (A : BumpArith) (overflow : Int → ℝ) (radius : ℝ) (maxIntensity : Int) : Grid :=
  let size := bumpSize radius
  let hi : Int := if maxIntensity ≤ 255 then 255 else 65535
  ⟨size, size, fun i j =>
    let v := binary64 (bumpValue64 A (bumpRadius radius) (bumpDistance64 size i j) * binary64 maxIntensity)
    if v > 0 then (if rint v ≤ hi then (rint v : ℝ) else overflow (rint v)) else 0⟩

end Verif.Model
