import Verif.Model.Float
import Verif.Model.Psf

/-!
# Model of the radial integration nodes in floating-point arithmetic

The step of the radial integration and its nodes (`numpy.arange`) are computed in the arithmetic `F`. Everything that follows (the waves, the sums,
the angular integration) is exact, as in Verif.Model.Psf: this isolates what the roundings of the nodes do to the integration.
-/

namespace Verif.Model

/-- `numpy.arange(start=start, stop=stop, step=step)` for `float`s: `ceil((stop - start)/step)` numbers, the first is `start`, the second is
`start + step`, and the others are `start + i*delta`, where `delta` is the difference of the first two,
/repo/src/zernpy/calculations/calc_psfs.py:132,/repo/src/zernpy/calculations/calc_psfs.py:167,/repo/src/zernpy/calculations/calc_psfs.py:561. -/
noncomputable def npArangeFl (F : FloatArith) (start stop step : ℝ) : List ℝ :=
  let delta := F.fl (F.fl (start + step) - start)
  (List.range ⌈F.fl (F.fl (stop - start) / step)⌉.toNat).map fun (i : Nat) =>
    if i = 0 then start else if i = 1 then F.fl (start + step) else F.fl (start + F.fl ((i : ℝ) * delta))

/-- `h_p = 1.0/n_int_r_points`, /repo/src/zernpy/calculations/calc_psfs.py:132,/repo/src/zernpy/calculations/calc_psfs.py:167,/repo/src/zernpy/calculations/calc_psfs.py:561. -/
noncomputable def radialStep (F : FloatArith) (nR : Int) : ℝ := F.fl (1 / (nR : ℝ))

/-- `p = np.arange(start=h_p, stop=1.0, step=h_p)`, /repo/src/zernpy/calculations/calc_psfs.py:132,/repo/src/zernpy/calculations/calc_psfs.py:167,/repo/src/zernpy/calculations/calc_psfs.py:561. -/
noncomputable def radialNodes (F : FloatArith) (nR : Int) : List ℝ := npArangeFl F (radialStep F nR) 1 (radialStep F nR)

/-- `radial_integral` (= `radial_integral_args`, `radial_integral_pols`) with the step and the nodes of the arithmetic `F`,
/repo/src/zernpy/calculations/calc_psfs.py:106-136,139-171,533-565. -/
noncomputable def radialIntegralFl (F : FloatArith) (phase : Phase) (r theta phi : ℝ) (nR : Int) : CM ℂ :=
  if nR = 0 then CM.raise .zeroDivisionError
  else do
    let fa ← diffractionAt phase phi 0 theta r
    let fb ← diffractionAt phase phi 1 theta r
    let s ← diffractionSum phase phi (radialNodes F nR) theta r
    pure ((radialStep F nR : ℂ) * (s + (1 / 2 : ℝ) * (fa + fb)))

/-- `np.sum([radial_integral(..., i*h_phi, ...) for i in ...])`, /repo/src/zernpy/calculations/calc_psfs.py:266-269,595-598. -/
noncomputable def angleSumFl (F : FloatArith) (phase : Phase) (r theta h : ℝ) (nR : Int) : List Int → ℂ → CM ℂ
  | [], acc => pure acc
  | i :: rest, acc => do
    let v ← radialIntegralFl F phase r theta ((i : ℝ) * h) nR
    angleSumFl F phase r theta h nR rest (acc + v)

/-- `get_psf_point_r_parallel` (= `get_psf_point_r`, `get_psf_point_r_pols`) with the radial step and nodes of the arithmetic `F`,
/repo/src/zernpy/calculations/calc_psfs.py:193-227,231-281,568-603. -/
noncomputable def psfPointFl (F : FloatArith) (phase : Phase) (r theta : ℝ) (nR nPhi : Int) : CM ℝ :=
  if nPhi = 0 then CM.raise .zeroDivisionError
  else do
    let h : ℝ := 2 * Real.pi / (nPhi : ℝ)
    let evenSum ← angleSumFl F phase r theta h nR (pyRange 2 (nPhi - 2) 2) 0
    let oddSum ← angleSumFl F phase r theta h nR (pyRange 1 (nPhi - 1) 2) 0
    let yA ← radialIntegralFl F phase r theta 0 nR
    let yB ← radialIntegralFl F phase r theta (2 * Real.pi) nR
    let integralSum := ((h / 3 : ℝ) : ℂ) * (yA + yB + 2 * evenSum + 4 * oddSum)
    pure (‖integralSum‖ ^ 2 * (1 / (Real.pi * Real.pi)))

/-- The radii of `gen_polar_coordinates` for a `float` step that is not 0: `Rs = np.arange(0.0, 1.0+r_step, r_step)` and the correction of the last
value, /repo/src/zernpy/zernikepol.py:1021-1024. -/
noncomputable def genRadiiFl (F : FloatArith) (rStep : ℝ) : Res (List ℝ) := clipLast 1 (npArangeFl F 0 (F.fl (1 + rStep)) rStep)

/-- `2.0*np.pi`, /repo/src/zernpy/zernikepol.py:1021,1025-1026. -/
noncomputable def twoPiFl (F : FloatArith) : ℝ := F.fl (2 * F.fl Real.pi)

open Classical in
/-- `ZernPol.gen_polar_coordinates`, /repo/src/zernpy/zernikepol.py:991-1027, for `float` steps, in the arithmetic `F`: `numpy.arange` raises
`ZeroDivisionError` for the step 0; `0.0 >= r_step > 0.5` is the chained comparison. -/
noncomputable def genPolarCoordinatesFl (F : FloatArith) (rStep thetaStep : ℝ) : Res (List ℝ × List ℝ) := do
  if 0 ≥ rStep ∧ rStep > 0.5 then throw .valueError
  if 0 ≥ thetaStep ∧ thetaStep > F.fl Real.pi then throw .valueError
  if rStep = 0 then throw .zeroDivisionError
  if thetaStep = 0 then throw .zeroDivisionError
  let rs ← clipLast 1 (npArangeFl F 0 (F.fl (1 + rStep)) rStep)
  let ts ← clipLast (twoPiFl F) (npArangeFl F 0 (F.fl (twoPiFl F + thetaStep)) thetaStep)
  pure (rs, ts)

/-- `numpy.linspace(0.0, stop, num)` for `num ≥ 2` and a `stop` that is not 0, in the arithmetic `F`: `arange(0, num)*(stop/(num-1)) + 0.0`, then
the last element is set to `stop`, /repo/src/zernpy/zernikepol.py:1051. -/
noncomputable def npLinspaceFl (F : FloatArith) (stop : ℝ) (num : Nat) : List ℝ :=
  ((List.range num).map fun (i : Nat) => F.fl (F.fl ((i : ℝ) * F.fl (stop / ((num : ℝ) - 1))) + 0)).set (num - 1) stop

/-- `ZernPol.gen_equal_polar_mesh`, /repo/src/zernpy/zernikepol.py:1030-1052, in the arithmetic `F`. -/
noncomputable def genEqualPolarMeshFl (F : FloatArith) (nPoints : Int) : List ℝ × List ℝ :=
  let n := (if nPoints < 4 then 4 else nPoints).toNat
  (npLinspaceFl F 1 n, npLinspaceFl F (twoPiFl F) n)

end Verif.Model
