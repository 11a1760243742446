import Verif.Model.Sums
import Verif.Model.Numeric
import Verif.Model.ZernPol

/-!
# Model of the PSF calculation (not accelerated), `calculations/calc_psfs.py`

The functions for one polynomial and for several polynomials have the same text apart from the phase, so they are modelled once with the phase
as a parameter. Printing, timing, warnings and figures are left out, `joblib` parallelisation is never requested by the package
(`test_parallel=False`).
-/

namespace Verif.Model

/-- The aberration phase at pupil points with the radii `p` (a number or an array) and the angle `phi`, /repo/src/zernpy/calculations/calc_psfs.py:102,/repo/src/zernpy/calculations/calc_psfs.py:524-528. -/
abbrev Phase := Arg → ℝ → CM Num

/-- `alpha*zernike_pol.polynomial_value(p, phi)`, /repo/src/zernpy/calculations/calc_psfs.py:102. -/
noncomputable def singlePhase (fuel : Nat) (o : PolObj) (alpha : ℝ) : Phase := fun p phi => do
  let v ← polVal fuel o p (.num phi)
  pure (v.smul alpha)

/-- The iterations of the loop after the first, /repo/src/zernpy/calculations/calc_psfs.py:524-528. -/
noncomputable def polsPhaseRest (fuel : Nat) (p : Arg) (phi : ℝ) : List (ℝ × PolObj) → Num → CM Num
  | [], S => pure S
  | (a, o) :: rest, S => do
    let v ← polVal fuel o p (.num phi)
    polsPhaseRest fuel p phi rest (S.add (v.smul a))

/-- The sum over the polynomials, /repo/src/zernpy/calculations/calc_psfs.py:524-528. -/
noncomputable def polsPhase (fuel : Nat) : List (ℝ × PolObj) → Phase
  | [] => fun _ _ => CM.raise .unboundLocalError
  | (a, o) :: rest => fun p phi => do
    let v ← polVal fuel o p (.num phi)
    polsPhaseRest fuel p phi rest (v.smul a)

/-- `np.exp((phase - r*p*np.cos(phi - theta))*1j)*p` at one point, /repo/src/zernpy/calculations/calc_psfs.py:102-103,529-530. -/
noncomputable def wave (phase r theta phi p : ℝ) : ℂ :=
  Complex.exp (((phase - r * p * Real.cos (phi - theta) : ℝ) : ℂ) * Complex.I) * p

/-- `diffraction_integral_r` for a number `p`, /repo/src/zernpy/calculations/calc_psfs.py:72-103,492-530. -/
noncomputable def diffractionAt (phase : Phase) (phi p theta r : ℝ) : CM ℂ := do
  let v ← phase (.num p) phi
  pure (wave (v.item 0) r theta phi p)

/-- `np.sum(diffraction_integral_r(...))` for an array `p`, /repo/src/zernpy/calculations/calc_psfs.py:72-103,135,492-530,564. -/
noncomputable def diffractionSum (phase : Phase) (phi : ℝ) (p : List ℝ) (theta r : ℝ) : CM ℂ := do
  let v ← phase (.arr [p.length] p) phi
  pure (p.mapIdx fun k x => wave (v.item k) r theta phi x).sum

/-- `numpy.arange(start, stop, step)` for a step that is not 0, /repo/src/zernpy/calculations/calc_psfs.py:132,/repo/src/zernpy/calculations/calc_psfs.py:561. -/
noncomputable def npArangeFrom (start stop step : ℝ) : List ℝ :=
  (List.range ⌈(stop - start) / step⌉.toNat).map fun (i : Nat) => start + (i : ℝ) * step

/-- `radial_integral` (= `radial_integral_args`, `radial_integral_pols`), /repo/src/zernpy/calculations/calc_psfs.py:106-136,139-171,533-565. -/
noncomputable def radialIntegral (phase : Phase) (r theta phi : ℝ) (nR : Int) : CM ℂ :=
  if nR = 0 then CM.raise .zeroDivisionError
  else do
    let h : ℝ := 1 / (nR : ℝ)
    let p := npArangeFrom h 1 h
    let fa ← diffractionAt phase phi 0 theta r
    let fb ← diffractionAt phase phi 1 theta r
    let s ← diffractionSum phase phi p theta r
    pure ((h : ℂ) * (s + (1 / 2 : ℝ) * (fa + fb)))

/-- Python's `range(start, stop, step)` for a positive step, /repo/src/zernpy/calculations/calc_psfs.py:220-222,/repo/src/zernpy/calculations/calc_psfs.py:594-597. -/
def pyRange (start stop step : Int) : List Int :=
  (List.range ((stop - start + step - 1) / step).toNat).map fun (i : Nat) => start + step * (i : Int)

/-- `np.sum([radial_integral(..., i*h_phi, ...) for i in ...])`, /repo/src/zernpy/calculations/calc_psfs.py:266-269,595-598. -/
noncomputable def angleSum (phase : Phase) (r theta h : ℝ) (nR : Int) : List Int → ℂ → CM ℂ
  | [], acc => pure acc
  | i :: rest, acc => do
    let v ← radialIntegral phase r theta ((i : ℝ) * h) nR
    angleSum phase r theta h nR rest (acc + v)

/-- `get_psf_point_r_parallel` without `joblib` (= `get_psf_point_r`, `get_psf_point_r_pols`),
/repo/src/zernpy/calculations/calc_psfs.py:193-227,231-281,568-603. -/
noncomputable def psfPoint (phase : Phase) (r theta : ℝ) (nR nPhi : Int) : CM ℝ :=
  if nPhi = 0 then CM.raise .zeroDivisionError
  else do
    let h : ℝ := 2 * Real.pi / (nPhi : ℝ)
    let evenSum ← angleSum phase r theta h nR (pyRange 2 (nPhi - 2) 2) 0
    let oddSum ← angleSum phase r theta h nR (pyRange 1 (nPhi - 1) 2) 0
    let yA ← radialIntegral phase r theta 0 nR
    let yB ← radialIntegral phase r theta (2 * Real.pi) nR
    let integralSum := ((h / 3 : ℝ) : ℂ) * (yA + yB + 2 * evenSum + 4 * oddSum)
    pure (‖integralSum‖ ^ 2 * (1 / (Real.pi * Real.pi)))

open Classical in
/-- `airy_ref_pattern`, /repo/src/zernpy/calculations/calc_psfs.py:46-68; `j1` is `scipy.special.jv(1, ·)`. -/
noncomputable def airyRef (j1 : ℝ → ℝ) (r : ℝ) : ℝ :=
  let r := npRound 12 r
  let ratio := if r = 0 then j1 1e-11 / 1e-11 else j1 r / r
  4 * ratio ^ 2

/-- The factor depending on the orders and `size_ext` before the amplitude is taken into account,
/repo/src/zernpy/calculations/calc_psfs.py:309-324. `math.sqrt` of a negative number is a `ValueError`. -/
noncomputable def sizeMultiplier (m n : Int) (NA : ℝ) : Res (ℝ × Int) :=
  open Classical in
  if m = 0 ∧ n = 0 then
    if 0.25 < NA ∧ NA < 1 then .ok (5 * (1 - NA) + 1.5, 0)
    else if NA = 0 then .error .zeroDivisionError
    else if NA < 0 then .error .valueError
    else .ok (4.5 + 2.5 * Real.sqrt (1 / NA), 0)
  else if n < 0 then .error .valueError
  else if |m| > 0 ∧ n % 2 ≠ 0 ∧ n - |m| < 0 then .error .valueError
  else
    let mult : ℝ :=
      if |m| > 0 ∧ n % 2 ≠ 0 then 1.25 * Real.sqrt n + 0.5 * Real.sqrt (n - |m| : ℤ)
      else if |m| > 0 ∧ n % 2 = 0 then 1.45 * Real.sqrt n
      else 1.25 * Real.sqrt n
    .ok (mult, if n - |m| ≤ (n + 1) / 2 then rint (Real.sqrt (n + |m| : ℤ)) + 1 else 0)

open Classical in
/-- `get_kernel_size`, /repo/src/zernpy/calculations/calc_psfs.py:285-335; the pixel size is not 0. -/
noncomputable def getKernelSize (m n : Int) (len2pixels alpha wavelength NA : ℝ) : Res Int := do
  let (mult, ext) ← sizeMultiplier m n NA
  let mult' : ℝ := if |alpha| ≥ 0.5 then mult * Real.sqrt (2.5 * |alpha|)
    else if |alpha| ≥ 0.25 then mult * Real.sqrt (4.25 * |alpha|) else mult
  let ext' : Int := if |alpha| ≥ 0.5 then ext + 2 else if |alpha| ≥ 0.25 then ext + 1 else ext
  let size : Int := rint (mult' * wavelength / len2pixels) + 1 + ext'
  pure (if size % 2 = 0 then size + 1 else size)

/-- The loop over the columns of row `i`. The first number counts the remaining columns, /repo/src/zernpy/calculations/calc_psfs.py:428-447,/repo/src/zernpy/calculations/calc_psfs.py:676-692. -/
noncomputable def fillRow (f : Nat → Nat → CM ℝ) (i : Nat) : Nat → Nat → Grid → CM Grid
  | 0, _, S => pure S
  | k + 1, j, S => do
    let v ← f i j
    fillRow f i k (j + 1) { S with entry := fun a b => if a = i ∧ b = j then v else S.entry a b }

/-- The loop over the rows of the kernel, /repo/src/zernpy/calculations/calc_psfs.py:428-447,/repo/src/zernpy/calculations/calc_psfs.py:676-692. -/
noncomputable def fillRows (f : Nat → Nat → CM ℝ) (cols : Nat) : Nat → Nat → Grid → CM Grid
  | 0, _, S => pure S
  | k + 1, i, S => do
    let S' ← fillRow f i cols 0 S
    fillRows f cols k (i + 1) S'

/-- `k*NA*len2pixels*pixel_dist`, the argument `r` of the PSF for a pixel, /repo/src/zernpy/calculations/calc_psfs.py:428-430,677-679. -/
noncomputable def kernelDist (size : Int) (k NA len2pixels : ℝ) (i j : Nat) : ℝ :=
  k * NA * len2pixels * Real.sqrt (((i : ℝ) - ((size / 2 : Int) : ℝ)) ^ 2 + ((j : ℝ) - ((size / 2 : Int) : ℝ)) ^ 2)

/-- The argument `theta` for a pixel, /repo/src/zernpy/calculations/calc_psfs.py:432-433,681-682. -/
noncomputable def kernelTheta (size : Int) (i j : Nat) : ℝ :=
  arctan2 ((i : ℝ) - ((size / 2 : Int) : ℝ)) ((j : ℝ) - ((size / 2 : Int) : ℝ)) + Real.pi

/-- All elements of an array, row by row, /repo/src/zernpy/calculations/calc_psfs.py:469,/repo/src/zernpy/calculations/calc_psfs.py:695. -/
def Grid.elems (g : Grid) : List ℝ := (List.range g.rows).flatMap fun i => (List.range g.cols).map (g.entry i)

/-- `kernel /= np.max(kernel)`, /repo/src/zernpy/calculations/calc_psfs.py:467-469,693-695. If the maximum is 0, `numpy` gives NaN: not
modelled, the theorems have the hypothesis that it is positive. -/
noncomputable def normalizeKernel (g : Grid) : Res Grid := do
  let top ← npMax g.elems
  pure { g with entry := fun i j => g.entry i j / top }

open Classical in
/-- `kernel = np.zeros(shape=(size, size))`, `pixel_size_nyquist = 0.5*0.61*wavelength/NA`, the loops over `i`, `j`, the normalisation,
/repo/src/zernpy/calculations/calc_psfs.py:401-469,652-695; a negative size is a `ValueError`. `value` is what is assigned to `kernel[i, j]`. -/
noncomputable def makeKernel (size : Int) (NA : ℝ) (value : Nat → Nat → CM ℝ) (normalize : Bool) : CM Grid :=
  if size < 0 then CM.raise .valueError
  else if NA = 0 then CM.raise .zeroDivisionError
  else do
    let g ← fillRows value size.toNat size.toNat 0 (Grid.zeros size.toNat size.toNat)
    if normalize then CM.lift (normalizeKernel g) else pure g

/-- `if size % 2 == 0: size += 1`, /repo/src/zernpy/calculations/calc_psfs.py:332-334,/repo/src/zernpy/zernpsf.py:259-261. -/
def makeOdd (size : Int) : Int := if size % 2 = 0 then size + 1 else size

/-- The parameters of a kernel calculation besides the aberrations, /repo/src/zernpy/calculations/calc_psfs.py:338-341,/repo/src/zernpy/calculations/calc_psfs.py:606-609. -/
structure KernelParams where
  len2pixels : ℝ
  wavelength : ℝ
  NA : ℝ
  nR : Int
  nPhi : Int
  normalize : Bool
  kernelSize : Int

open Classical in
/-- `get_psf_kernel` as called by the class (`test_vectorized=True`), /repo/src/zernpy/calculations/calc_psfs.py:338-488. The final check
of the border of the kernel only gives a warning. -/
noncomputable def getPsfKernel (fuel : Nat) (j1 : ℝ → ℝ) (o : PolObj) (coeff : ℝ) (q : KernelParams) (airy : Bool) : CM Grid :=
  if q.wavelength = 0 then CM.raise .zeroDivisionError
  else do
  let alpha := coeff / q.wavelength
  let k := 2 * Real.pi / q.wavelength
  let size0 ← CM.lift (if q.kernelSize < 3 then getKernelSize o.m o.n q.len2pixels alpha q.wavelength q.NA else .ok q.kernelSize)
  let size := makeOdd size0
  makeKernel size q.NA (fun i j =>
    if airy then pure (airyRef j1 (kernelDist size k q.NA q.len2pixels i j))
    else psfPoint (singlePhase fuel o alpha) (kernelDist size k q.NA q.len2pixels i j) (kernelTheta size i j) q.nR q.nPhi) q.normalize

open Classical in
/-- `get_psf_kernel_zerns`, /repo/src/zernpy/calculations/calc_psfs.py:606-705, on the amplitudes zipped with the polynomials. -/
noncomputable def getPsfKernelZerns (fuel : Nat) (l : List (ℝ × PolObj)) (q : KernelParams) : CM Grid :=
  if q.wavelength = 0 then CM.raise .zeroDivisionError
  else
  let k := 2 * Real.pi / q.wavelength
  let size := makeOdd q.kernelSize
  makeKernel size q.NA (fun i j =>
    psfPoint (polsPhase fuel l) (kernelDist size k q.NA q.len2pixels i j) (kernelTheta size i j) q.nR q.nPhi) q.normalize

end Verif.Model
