import Verif.Model.FloatNodes

/-!
# Model of the PSF calculation in floating-point arithmetic

Every operation of `calculations/calc_psfs.py` from the integration nodes to the pixel of the kernel is rounded. Operations with a part that is exactly
0 (multiplication of a real number by `1j`, of a complex number by a real one) are exact in that part and are not rounded a second time. The numbers
of points and the pixel indices are converted to `float`s exactly. Arrays are evaluated element by element. The order of the additions in `numpy.sum` is left to
the arithmetic.
-/

namespace Verif.Model

/-- A floating-point arithmetic with the further functions that the PSF needs: `math.pi`, the real and the imaginary part of `numpy.exp(x*1j)`,
`numpy.sum`, `numpy.abs(a + b*1j)`, `numpy.power(x, 2)`, `numpy.arctan2`, /repo/src/zernpy/calculations/calc_psfs.py:102-103,135,226-227,433. -/
structure PsfArith extends FloatArith where
  pi : ℝ
  expRe : ℝ → ℝ
  expIm : ℝ → ℝ
  sum : List ℝ → ℝ
  hypot : ℝ → ℝ → ℝ
  sq : ℝ → ℝ
  atan2 : ℝ → ℝ → ℝ

/-- A complex number of the arithmetic, /repo/src/zernpy/calculations/calc_psfs.py:102-136. -/
structure CFl where
  re : ℝ
  im : ℝ

/-- The aberration phase at the pupil point with the radius `p` and the angle `phi`, /repo/src/zernpy/calculations/calc_psfs.py:102,/repo/src/zernpy/calculations/calc_psfs.py:524-528. -/
abbrev FltPhase := ℝ → ℝ → CM ℝ

/-- `alpha*zernike_pol.polynomial_value(p, phi)`, /repo/src/zernpy/calculations/calc_psfs.py:102. -/
noncomputable def fltSinglePhase (F : PsfArith) (fuel : Nat) (o : PolObj) (alpha : ℝ) : FltPhase := fun p phi => do
  let v ← polynomialFl F.toFloatArith fuel false o.m o.n ⟨p⟩ ⟨phi⟩
  pure (F.fl (alpha * v.val))

/-- The iterations of the loop after the first, /repo/src/zernpy/calculations/calc_psfs.py:524-528. -/
noncomputable def fltPolsRest (F : PsfArith) (fuel : Nat) (p phi : ℝ) : List (ℝ × PolObj) → ℝ → CM ℝ
  | [], S => pure S
  | (a, o) :: rest, S => do
    let v ← fltSinglePhase F fuel o a p phi
    fltPolsRest F fuel p phi rest (F.fl (S + v))

/-- The sum over the polynomials, /repo/src/zernpy/calculations/calc_psfs.py:524-528. -/
noncomputable def fltPolsPhase (F : PsfArith) (fuel : Nat) : List (ℝ × PolObj) → FltPhase
  | [] => fun _ _ => CM.raise .unboundLocalError
  | (a, o) :: rest => fun p phi => do
    let v ← fltSinglePhase F fuel o a p phi
    fltPolsRest F fuel p phi rest v

/-- `np.exp((phase - r*p*np.cos(phi - theta))*1j)*p` at one point, /repo/src/zernpy/calculations/calc_psfs.py:102-103,529-530. -/
def fltWave (F : PsfArith) (phase r theta phi p : ℝ) : CFl :=
  let a := F.fl (phase - F.fl (F.fl (r * p) * F.cos (F.fl (phi - theta))))
  ⟨F.fl (F.expRe a * p), F.fl (F.expIm a * p)⟩

/-- `diffraction_integral_r` at one point, /repo/src/zernpy/calculations/calc_psfs.py:72-103,492-530. -/
def fltDiffraction (F : PsfArith) (ph : FltPhase) (phi p theta r : ℝ) : CM CFl := do
  let v ← ph p phi
  pure (fltWave F v r theta phi p)

/-- `diffraction_integral_r` on an array of radii, /repo/src/zernpy/calculations/calc_psfs.py:72-103,492-530. -/
def fltWaves (F : PsfArith) (ph : FltPhase) (phi theta r : ℝ) : List ℝ → CM (List CFl)
  | [] => pure []
  | p :: rest => do
    let w ← fltDiffraction F ph phi p theta r
    let ws ← fltWaves F ph phi theta r rest
    pure (w :: ws)

/-- `np.sum` of complex numbers, /repo/src/zernpy/calculations/calc_psfs.py:135,267-269,564,596-598. -/
def fltSum (F : PsfArith) (l : List CFl) : CFl := ⟨F.sum (l.map CFl.re), F.sum (l.map CFl.im)⟩

/-- One part of `h_p*(np.sum(...) + 0.5*(fa + fb))`, /repo/src/zernpy/calculations/calc_psfs.py:135-136,170-171,564-565. -/
def fltRadialPart (F : PsfArith) (h s fa fb : ℝ) : ℝ := F.fl (h * F.fl (s + F.fl (0.5 * F.fl (fa + fb))))

/-- `radial_integral` (= `radial_integral_args`, `radial_integral_pols`), /repo/src/zernpy/calculations/calc_psfs.py:106-136,139-171,533-565. -/
noncomputable def fltRadialIntegral (F : PsfArith) (ph : FltPhase) (r theta phi : ℝ) (nR : Int) : CM CFl :=
  if nR = 0 then CM.raise .zeroDivisionError
  else do
    let h := radialStep F.toFloatArith nR
    let fa ← fltDiffraction F ph phi 0 theta r
    let fb ← fltDiffraction F ph phi 1 theta r
    let ws ← fltWaves F ph phi theta r (radialNodes F.toFloatArith nR)
    let s := fltSum F ws
    pure ⟨fltRadialPart F h s.re fa.re fb.re, fltRadialPart F h s.im fa.im fb.im⟩

/-- `[radial_integral(..., i*h_phi, ...) for i in ...]`, /repo/src/zernpy/calculations/calc_psfs.py:266-269,595-598. -/
noncomputable def fltAngles (F : PsfArith) (ph : FltPhase) (r theta h : ℝ) (nR : Int) : List Int → CM (List CFl)
  | [] => pure []
  | i :: rest => do
    let v ← fltRadialIntegral F ph r theta (F.fl ((i : ℝ) * h)) nR
    let vs ← fltAngles F ph r theta h nR rest
    pure (v :: vs)

/-- One part of `(h_phi/3.0)*(yA + yB + 2.0*even_sum + 4.0*odd_sum)`, /repo/src/zernpy/calculations/calc_psfs.py:226,280,602. -/
def fltAngularPart (F : PsfArith) (c yA yB even odd : ℝ) : ℝ := F.fl (c * F.fl (F.fl (F.fl (yA + yB) + F.fl (2 * even)) + F.fl (4 * odd)))

/-- `get_psf_point_r_parallel` without `joblib` (= `get_psf_point_r`, `get_psf_point_r_pols`),
/repo/src/zernpy/calculations/calc_psfs.py:193-227,231-281,568-603. -/
noncomputable def fltPsfPoint (F : PsfArith) (ph : FltPhase) (r theta : ℝ) (nR nPhi : Int) : CM ℝ :=
  if nPhi = 0 then CM.raise .zeroDivisionError
  else do
    let h := F.fl (F.fl (2 * F.pi) / (nPhi : ℝ))
    let evens ← fltAngles F ph r theta h nR (pyRange 2 (nPhi - 2) 2)
    let odds ← fltAngles F ph r theta h nR (pyRange 1 (nPhi - 1) 2)
    let yA ← fltRadialIntegral F ph r theta 0 nR
    let yB ← fltRadialIntegral F ph r theta (F.fl (2 * F.pi)) nR
    let even := fltSum F evens
    let odd := fltSum F odds
    let c := F.fl (h / 3)
    let re := fltAngularPart F c yA.re yB.re even.re odd.re
    let im := fltAngularPart F c yA.im yB.im even.im odd.im
    pure (F.fl (F.sq (F.hypot re im) * F.fl (1 / F.fl (F.pi * F.pi))))

/-- `k*NA*len2pixels*pixel_dist`, /repo/src/zernpy/calculations/calc_psfs.py:428-430,677-679; the squares of the pixel distances are integers and exact. -/
noncomputable def fltKernelDist (F : PsfArith) (size : Int) (k NA len2pixels : ℝ) (i j : Nat) : ℝ :=
  F.fl (F.fl (F.fl (k * NA) * len2pixels) * F.sqrt (((i : ℝ) - ((size / 2 : Int) : ℝ)) ^ 2 + ((j : ℝ) - ((size / 2 : Int) : ℝ)) ^ 2))

/-- The argument `theta` for a pixel, /repo/src/zernpy/calculations/calc_psfs.py:432-433,681-682. -/
noncomputable def fltKernelTheta (F : PsfArith) (size : Int) (i j : Nat) : ℝ :=
  F.fl (F.atan2 ((i : ℝ) - ((size / 2 : Int) : ℝ)) ((j : ℝ) - ((size / 2 : Int) : ℝ)) + F.pi)

/-- `kernel /= np.max(kernel)`, /repo/src/zernpy/calculations/calc_psfs.py:467-469,693-695. A maximum of 0 is not modelled. -/
noncomputable def fltNormalize (F : PsfArith) (g : Grid) : Res Grid := do
  let top ← npMax g.elems
  pure { g with entry := fun i j => F.fl (g.entry i j / top) }

open Classical in
/-- The kernel from the values of its pixels, /repo/src/zernpy/calculations/calc_psfs.py:401-469,652-695. -/
noncomputable def fltMakeKernel (F : PsfArith) (size : Int) (NA : ℝ) (value : Nat → Nat → CM ℝ) (normalize : Bool) : CM Grid :=
  if size < 0 then CM.raise .valueError
  else if NA = 0 then CM.raise .zeroDivisionError
  else do
    let g ← fillRows value size.toNat size.toNat 0 (Grid.zeros size.toNat size.toNat)
    if normalize then CM.lift (fltNormalize F g) else pure g

open Classical in
/-- `get_psf_kernel` for a given kernel size and no Airy pattern, /repo/src/zernpy/calculations/calc_psfs.py:338-488. -/
noncomputable def fltPsfKernel (F : PsfArith) (fuel : Nat) (o : PolObj) (coeff : ℝ) (q : KernelParams) : CM Grid :=
  if q.wavelength = 0 then CM.raise .zeroDivisionError
  else
    let alpha := F.fl (coeff / q.wavelength)
    let k := F.fl (F.fl (2 * F.pi) / q.wavelength)
    let size := makeOdd q.kernelSize
    fltMakeKernel F size q.NA (fun i j =>
      fltPsfPoint F (fltSinglePhase F fuel o alpha) (fltKernelDist F size k q.NA q.len2pixels i j) (fltKernelTheta F size i j) q.nR q.nPhi) q.normalize

open Classical in
/-- `get_psf_kernel_zerns`, /repo/src/zernpy/calculations/calc_psfs.py:606-705, on the amplitudes zipped with the polynomials. -/
noncomputable def fltPsfKernelZerns (F : PsfArith) (fuel : Nat) (l : List (ℝ × PolObj)) (q : KernelParams) : CM Grid :=
  if q.wavelength = 0 then CM.raise .zeroDivisionError
  else
    let k := F.fl (F.fl (2 * F.pi) / q.wavelength)
    let size := makeOdd q.kernelSize
    fltMakeKernel F size q.NA (fun i j =>
      fltPsfPoint F (fltPolsPhase F fuel l) (fltKernelDist F size k q.NA q.len2pixels i j) (fltKernelTheta F size i j) q.nR q.nPhi) q.normalize

/-- The sum of the list from the left, starting with the first element, in the arithmetic of the roundings `fl`, `even_sum += ...`,
/repo/src/zernpy/calculations/calc_psfs.py:220-222. -/
def sumFromLeft (fl : ℝ → ℝ) : List ℝ → ℝ
  | [] => 0
  | x :: rest => rest.foldl (fun s y => fl (s + y)) x

/-- Double precision with correctly rounded functions; `s` is the summation, numbers in /repo/src/zernpy/calculations/calc_psfs.py:72-281. -/
noncomputable def psfDoubles (s : List ℝ → ℝ) : PsfArith where
  toFloatArith := doubles
  pi := binary64 Real.pi
  expRe x := binary64 (Real.cos x)
  expIm x := binary64 (Real.sin x)
  sum := s
  hypot a b := binary64 (Real.sqrt (a ^ 2 + b ^ 2))
  sq x := binary64 (x ^ 2)
  atan2 y x := binary64 (arctan2 y x)

end Verif.Model
