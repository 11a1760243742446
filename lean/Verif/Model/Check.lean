import Verif.Model.Psf

/-!
# Model of the developers' reference integrations, `calculations/calc_psfs_check.py`

The module keeps older, independent versions of the PSF integrals. Only calls with a `ZernPol` object are modelled (a tuple of orders is first
made into one). The Nijboer approximations, the plots and the scripts of the module are not modelled.
-/

namespace Verif.Model

/-- `n_phi_points`, /repo/src/zernpy/calculations/calc_psfs_check.py:32. -/
def checkPhiPoints : Int := 300

/-- `n_p_points`, /repo/src/zernpy/calculations/calc_psfs_check.py:32. -/
def checkPPoints : Int := 320

/-- `diffraction_integral_r` (= `diffraction_integral_ang`) for two numbers, /repo/src/zernpy/calculations/calc_psfs_check.py:44-76,147-178. -/
noncomputable def checkDiffraction (fuel : Nat) (o : PolObj) (alpha phi p theta r : ℝ) : CM ℂ := do
  let v ← polVal fuel o (.num p) (.num phi)
  pure (Complex.exp (((alpha * v.item 0 - r * p * Real.cos (phi - theta) : ℝ) : ℂ) * Complex.I) * p)

/-- `np.sum(diffraction_integral_r(...))` for an array of radii, /repo/src/zernpy/calculations/calc_psfs_check.py:44-76,105. -/
noncomputable def checkDiffractionSumR (fuel : Nat) (o : PolObj) (alpha phi : ℝ) (p : List ℝ) (theta r : ℝ) : CM ℂ := do
  let v ← polVal fuel o (.arr [p.length] p) (.num phi)
  pure (p.mapIdx fun k x => Complex.exp (((alpha * v.item k - r * x * Real.cos (phi - theta) : ℝ) : ℂ) * Complex.I) * x).sum

/-- `np.sum(diffraction_integral_ang(...))` for an array of angles, /repo/src/zernpy/calculations/calc_psfs_check.py:147-178,207. -/
noncomputable def checkDiffractionSumAng (fuel : Nat) (o : PolObj) (alpha : ℝ) (phi : List ℝ) (p theta r : ℝ) : CM ℂ := do
  let v ← polVal fuel o (.num p) (.arr [phi.length] phi)
  pure (phi.mapIdx fun k y => Complex.exp (((alpha * v.item k - r * p * Real.cos (y - theta) : ℝ) : ℂ) * Complex.I) * p).sum

/-- `radial_integral`, /repo/src/zernpy/calculations/calc_psfs_check.py:79-106. -/
noncomputable def checkRadialIntegral (fuel : Nat) (o : PolObj) (r theta phi alpha : ℝ) : CM ℂ := do
  let h : ℝ := 1 / (checkPPoints : ℝ)
  let p := npArangeFrom h 1 h
  let fa ← checkDiffraction fuel o alpha phi 0 theta r
  let fb ← checkDiffraction fuel o alpha phi 1 theta r
  let s ← checkDiffractionSumR fuel o alpha phi p theta r
  pure ((h : ℂ) * (s + (1 / 2 : ℝ) * (fa + fb)))

/-- `even_sum += ...`, `odd_sum += ...`: a loop adding the values of `f` at the multiples of `h`,
/repo/src/zernpy/calculations/calc_psfs_check.py:137-140,239-242. -/
noncomputable def checkLoop (f : ℝ → CM ℂ) (h : ℝ) : List Int → ℂ → CM ℂ
  | [], acc => pure acc
  | i :: rest, acc => do
    let v ← f ((i : ℝ) * h)
    checkLoop f h rest (acc + v)

/-- `get_psf_point_r`, /repo/src/zernpy/calculations/calc_psfs_check.py:109-143. -/
noncomputable def checkPointR (fuel : Nat) (o : PolObj) (r theta alpha : ℝ) : CM ℝ := do
  let n := checkPhiPoints
  let h : ℝ := 2 * Real.pi / (n : ℝ)
  let evenSum ← checkLoop (fun phi => checkRadialIntegral fuel o r theta phi alpha) h (pyRange 2 (n - 2) 2) 0
  let oddSum ← checkLoop (fun phi => checkRadialIntegral fuel o r theta phi alpha) h (pyRange 1 (n - 1) 2) 0
  let yA ← checkRadialIntegral fuel o r theta 0 alpha
  let yB ← checkRadialIntegral fuel o r theta (2 * Real.pi) alpha
  let integralSum := ((h / 3 : ℝ) : ℂ) * (yA + yB + 2 * evenSum + 4 * oddSum)
  pure (‖integralSum‖ ^ 2 * (1 / (Real.pi * Real.pi)))

/-- `angular_integral`, /repo/src/zernpy/calculations/calc_psfs_check.py:181-208. -/
noncomputable def checkAngularIntegral (fuel : Nat) (o : PolObj) (r theta p alpha : ℝ) : CM ℂ := do
  let h : ℝ := Real.pi / (checkPhiPoints : ℝ)
  let phi := npArangeFrom h (2 * Real.pi) h
  let fa ← checkDiffraction fuel o alpha 0 p theta r
  let fb ← checkDiffraction fuel o alpha (2 * Real.pi) p theta r
  let s ← checkDiffractionSumAng fuel o alpha phi p theta r
  pure ((h : ℂ) * (s + (1 / 2 : ℝ) * (fa + fb)))

/-- `get_psf_point_ang`, /repo/src/zernpy/calculations/calc_psfs_check.py:211-245. -/
noncomputable def checkPointAng (fuel : Nat) (o : PolObj) (r theta alpha : ℝ) : CM ℝ := do
  let n := checkPPoints
  let h : ℝ := 1 / (n : ℝ)
  let evenSum ← checkLoop (fun p => checkAngularIntegral fuel o r theta p alpha) h (pyRange 2 (n - 2) 2) 0
  let oddSum ← checkLoop (fun p => checkAngularIntegral fuel o r theta p alpha) h (pyRange 1 (n - 1) 2) 0
  let yA ← checkAngularIntegral fuel o r theta 0 alpha
  let yB ← checkAngularIntegral fuel o r theta 1 alpha
  let integralSum := ((h / 3 : ℝ) : ℂ) * (yA + yB + 2 * evenSum + 4 * oddSum)
  pure (‖integralSum‖ ^ 2 / (4 * Real.pi * Real.pi))

open Classical in
/-- The size of the kernel, /repo/src/zernpy/calculations/calc_psfs_check.py:502-519. A coefficient 0 is a `ZeroDivisionError`. -/
noncomputable def checkKernelSize (cal alpha : ℝ) (unified : Bool) : Res Int :=
  let multiplier : ℝ :=
    if !unified then
      if |alpha| < 1 then 20
      else if |alpha| < 1.5 then 24
      else if |alpha| ≤ 2 then 26
      else 30
    else 26
  if cal = 0 then .error .zeroDivisionError
  else
    let size := rint (multiplier * (1 / cal)) + 1
    .ok (if size % 2 = 0 then size + 1 else size)

/-- `get_psf_kernel` of the module, /repo/src/zernpy/calculations/calc_psfs_check.py:482-532; a negative size is a `ValueError`. -/
noncomputable def checkKernel (fuel : Nat) (o : PolObj) (cal alpha : ℝ) (unified : Bool) : CM Grid := do
  let size ← CM.lift (checkKernelSize cal alpha unified)
  if size < 0 then CM.raise .valueError
  else
    let center : ℝ := ((size / 2 : Int) : ℝ)
    fillRows (fun i j =>
      let pixelDist := Real.sqrt (((i : ℝ) - center) ^ 2 + ((j : ℝ) - center) ^ 2)
      let theta := arctan2 ((i : ℝ) - center) ((j : ℝ) - center) + Real.pi
      checkPointR fuel o (pixelDist * cal) theta alpha) size.toNat size.toNat 0 (Grid.zeros size.toNat size.toNat)

end Verif.Model
