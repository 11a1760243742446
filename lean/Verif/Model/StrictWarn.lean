import Verif.Model.Warn

/-!
# Model of `ZernPSF` with the filter of the `warnings` module: warnings that are shown, or raised as exceptions

With `warnings.simplefilter("error")` (`python -W error`, a usual setting of test suites) `warnings.warn` raises. The methods then stop in the
middle, and the text kept in the attribute `__warn_message`, which they empty after the warning, stays. Here the methods are modelled step
by step with this attribute. Left out: the warnings of the polynomials themselves in a calculation with orders above 50 (see
Verif.Model.PolyWarn) and the `RuntimeWarning`s of `numpy`.
-/

namespace Verif.Model

/-- A `ZernPSF` object with its attribute `__warn_message` (`none`: the empty text) and the warnings shown so far,
/repo/src/zernpy/zernpsf.py:76. -/
structure WarnObj where
  obj : PsfObj
  message : Option PsfWarn
  log : List PsfWarn

/-- What a call can raise: an exception, or a warning made an exception, /repo/src/zernpy/zernpsf.py:151-429. -/
inductive WarnErr where
  | py (e : PyErr)
  | warning (w : PsfWarn)

/-- The result of a call, /repo/src/zernpy/zernpsf.py:151-429. -/
abbrev WRes (β : Type) := Except WarnErr β

/-- An exception of the calculation, /repo/src/zernpy/zernpsf.py:389-420. -/
def toWRes {β : Type} : Res β → WRes β
  | .ok v => .ok v
  | .error e => .error (.py e)

/-- `self.__warn_message = text; warnings.warn(self.__warn_message); self.__warn_message = ""`, e.g. /repo/src/zernpy/zernpsf.py:301-303. If the
filter raises, the attribute is not emptied. -/
def WarnObj.warnStored (strict : Bool) (w : PsfWarn) (s : WarnObj) : WRes Unit × WarnObj :=
  if strict then (.error (.warning w), { s with message := some w }) else (.ok (), { s with message := none, log := s.log ++ [w] })

/-- `warnings.warn(text)` with a local text, /repo/src/zernpy/calculations/calc_psfs.py:415,/repo/src/zernpy/calculations/calc_psfs.py:478. -/
def WarnObj.warnLocal (strict : Bool) (w : PsfWarn) (s : WarnObj) : WRes Unit × WarnObj :=
  if strict then (.error (.warning w), s) else (.ok (), { s with log := s.log ++ [w] })

/-- One step after the other; an exception ends the call, /repo/src/zernpy/zernpsf.py:151-429. -/
def WarnObj.andThen {β : Type} (p : WRes Unit × WarnObj) (f : WarnObj → WRes β × WarnObj) : WRes β × WarnObj :=
  match p with
  | (.error e, s) => (.error e, s)
  | (.ok _, s) => f s

open Classical in
/-- `self.__warn_message = _sanity_check_expansion_coefficient(x)` and the warning if it is not empty, /repo/src/zernpy/zernpsf.py:211-213,235-237. -/
noncomputable def WarnObj.sanityStep (strict : Bool) (x : ℝ) (s : WarnObj) : WRes Unit × WarnObj :=
  if x > 10 then s.warnStored strict .bigCoefficient else (.ok (), { s with message := none })

/-- The part of `set_physical_props` for the coefficient(s), /repo/src/zernpy/zernpsf.py:204-238. The stored wavelength is the argument. -/
noncomputable def WarnObj.storeCoeff (strict : Bool) (s : WarnObj) : CoeffArg → WRes Unit × WarnObj
  | .seq l =>
    if l.length ≠ s.obj.polynomials.length then
      match l with
      | [x] =>
        if s.obj.polynomials.length = 0 then
          WarnObj.andThen (s.sanityStep strict (|x| / s.obj.wavelength)) fun s => (.ok (), { s with obj := s.obj.storeOne x })
        else (.error (.py .valueError), s)
      | _ => (.error (.py .valueError), s)
    else
      let s := { s with obj := { s.obj with coefficients := some l } }
      match npMax l, npMin l with
      | .ok hi, .ok lo =>
        WarnObj.andThen (s.sanityStep strict (abs (max hi (abs lo)) / s.obj.wavelength)) fun s =>
          (.ok (), { s with obj := { s.obj with amplitudes := some (l.map (· / s.obj.wavelength)) } })
      | .error e, _ => (.error (.py e), s)
      | _, .error e => (.error (.py e), s)
  | .num x =>
    if s.obj.zernpol = none ∧ s.obj.polynomials.length > 1 then (.error (.py .valueError), s)
    else WarnObj.andThen (s.sanityStep strict (|x| / s.obj.wavelength)) fun s => (.ok (), { s with obj := s.obj.storeOne x })
  | .bad e =>
    if s.obj.zernpol = none ∧ s.obj.polynomials.length > 1 then (.error (.py .valueError), s) else (.error (.py e), s)

/-- The estimation of the size and the flag at the end of `set_physical_props`, /repo/src/zernpy/zernpsf.py:239-263. -/
noncomputable def WarnObj.finishProps (s : WarnObj) : WRes Unit × WarnObj :=
  match s.obj.estimateSize with
  | .error e => (.error (.py e), s)
  | .ok size => (.ok (), { s with obj := { s.obj with kernelSize := size, propsSet := true } })

open Classical in
/-- `set_physical_props`, /repo/src/zernpy/zernpsf.py:151-263; `strict`: warnings are raised. -/
noncomputable def WarnObj.setPhysicalProps (strict : Bool) (s : WarnObj) (NA wavelength : ℝ) (coeff : CoeffArg) (px : ℝ) : WRes Unit × WarnObj :=
  if NA < 0 ∨ NA > 1.7 then (.error (.py .valueError), s)
  else if wavelength ≤ 0 then (.error (.py .valueError), s)
  else
    let o : PsfObj := { s.obj with k := 2 * Real.pi / s.obj.wavelength, NA := NA, wavelength := wavelength }
    if NA = 0 then (.error (.py .zeroDivisionError), { s with obj := o })
    else
      let o : PsfObj := { o with nyquist := 0.5 * 0.5 * wavelength / NA }
      if px ≤ 0 then (.error (.py .valueError), { s with obj := o })
      else if px > o.nyquist then (.error (.py .valueError), { s with obj := o })
      else
        WarnObj.andThen (WarnObj.storeCoeff strict { s with obj := { o with pixelSize := px } } coeff) WarnObj.finishProps

/-- The numbers of integration points in `set_calculation_props`, /repo/src/zernpy/zernpsf.py:308-319. -/
def WarnObj.storePoints (strict : Bool) (s : WarnObj) (nR nPhi : Int) : WRes Unit × WarnObj :=
  if nR < 20 then (.error (.py .valueError), s)
  else if nPhi < 36 then (.error (.py .valueError), s)
  else
    let s := { s with obj := { s.obj with nR := nR, nPhi := nPhi } }
    if nR > 500 ∧ nPhi > 400 then s.warnStored strict .precision else (.ok (), s)

/-- The warnings about the size in `set_calculation_props`, /repo/src/zernpy/zernpsf.py:299-306. -/
def WarnObj.sizeWarning (strict : Bool) (s : WarnObj) (size : Int) : WRes Unit × WarnObj :=
  if s.obj.propsSet then
    if size < s.obj.kernelSize then s.warnStored strict .sizeReduced else (.ok (), s)
  else s.warnStored strict .propsFirst

/-- `set_calculation_props`, /repo/src/zernpy/zernpsf.py:265-319. -/
def WarnObj.setCalculationProps (strict : Bool) (s : WarnObj) (size nR nPhi : Int) : WRes Unit × WarnObj :=
  if size < 3 then (.error (.py .valueError), s)
  else
    WarnObj.andThen (s.sizeWarning strict (makeOdd size)) fun s =>
      WarnObj.storePoints strict { s with obj := { s.obj with kernelSize := makeOdd size } } nR nPhi

/-- The check of a pending text at the beginning of `calculate_psf_kernel`, /repo/src/zernpy/zernpsf.py:369-370. The text is not emptied. -/
def WarnObj.pending (strict suppress : Bool) (s : WarnObj) : WRes Unit × WarnObj :=
  match s.message with
  | some w => if suppress then (.ok (), s) else s.warnLocal strict w
  | none => (.ok (), s)

/-- The warnings about default properties and the missing `numba`, /repo/src/zernpy/zernpsf.py:371-383. -/
def WarnObj.beforeCalculation (strict suppress : Bool) (env : Env) (accelerated : Option Bool) (s : WarnObj) : WRes Unit × WarnObj :=
  WarnObj.andThen
    (if ¬ s.obj.propsSet ∧ ¬ suppress then
      WarnObj.warnStored strict .defaultProps { s with obj := { s.obj with kernelSize := 19 } } else (.ok (), s)) fun s =>
    if accelerated = some true ∧ ¬ env.numba ∧ ¬ suppress then s.warnStored strict .noNumba else (.ok (), s)

open Classical in
/-- Whether a calculation comes to the check of the pixel size (no exception before it), /repo/src/zernpy/calculations/calc_psfs.py:390-411,
/repo/src/zernpy/calculations/calc_psfs.py:652-664,/repo/src/zernpy/calculations/calc_psfs_numba.py:324-349. -/
noncomputable def PsfObj.reachesPixelCheck (env : Env) (o : PsfObj) (accelerated : Option Bool) : Bool :=
  if o.wavelength = 0 ∨ o.NA = 0 then false
  else if env.accelerate accelerated then
    decide (0 ≤ makeOdd o.kernelSize) &&
      (match o.zernpol with
        | some z => !compUnsupported z.m z.n
        | none => !o.polynomials.any fun z => compUnsupported z.m z.n)
  else
    match o.zernpol with
    | some z =>
      (match (if o.kernelSize < 3 then getKernelSize z.m z.n o.pixelSize (o.expansionCoeff / o.wavelength) o.wavelength o.NA else .ok o.kernelSize) with
        | .ok size => decide (0 ≤ makeOdd size)
        | .error _ => false)
    | none => decide (0 ≤ makeOdd o.kernelSize)

open Classical in
/-- The warnings before the loops of the kernel functions, /repo/src/zernpy/calculations/calc_psfs.py:411-415,
/repo/src/zernpy/calculations/calc_psfs_numba.py:327-354. -/
noncomputable def WarnObj.beforeLoops (strict suppress : Bool) (env : Env) (accelerated : Option Bool) (s : WarnObj) : WRes Unit × WarnObj :=
  WarnObj.andThen
    (if env.accelerate accelerated ∧ s.obj.wavelength ≠ 0 ∧ makeOdd s.obj.kernelSize > 85 ∧ ¬ suppress then s.warnLocal strict .slowKernel else (.ok (), s)) fun s =>
    if s.obj.reachesPixelCheck env accelerated ∧ s.obj.pixelSize > 0.5 * 0.61 * s.obj.wavelength / s.obj.NA ∧ ¬ suppress then
      s.warnLocal strict .coarsePixels
    else (.ok (), s)

open Classical in
/-- The check of the border at the end of the kernel functions, /repo/src/zernpy/calculations/calc_psfs.py:470-478. -/
noncomputable def WarnObj.checkBorder (strict suppress : Bool) (g : Grid) (s : WarnObj) : WRes Unit × WarnObj :=
  if suppress then (.ok (), s)
  else
    match borderWarning g with
    | [] => (.ok (), s)
    | w :: _ => s.warnLocal strict w

/-- The calculation after its first warnings, /repo/src/zernpy/zernpsf.py:389-429, with the tables of coefficients. The kernel is stored only
if the kernel function returns. -/
noncomputable def WarnObj.runKernel (strict suppress : Bool) (env : Env) (normalized : Bool) (accelerated : Option Bool) (s : WarnObj) (t : CoefState) :
    (WRes Grid × WarnObj) × CoefState :=
  match s.obj.kernelCall env normalized accelerated with
  | none => ((.ok s.obj.kernel, s), t)
  | some x =>
    match s.beforeLoops strict suppress env accelerated with
    | (.error e, s) => ((.error e, s), t)
    | (.ok _, s) =>
      match x t with
      | (.error e, t') => ((.error (.py e), s), t')
      | (.ok g, t') =>
        (WarnObj.andThen (s.checkBorder strict suppress g) fun s => (.ok g, { s with obj := { s.obj with kernel := g } }), t')

/-- `calculate_psf_kernel`, /repo/src/zernpy/zernpsf.py:322-429. -/
noncomputable def WarnObj.calculate (strict : Bool) (env : Env) (s : WarnObj) (suppress normalized : Bool) (accelerated : Option Bool) (t : CoefState) :
    (WRes Grid × WarnObj) × CoefState :=
  match WarnObj.andThen (s.pending strict suppress) (WarnObj.beforeCalculation strict suppress env accelerated) with
  | (.error e, s) => ((.error e, s), t)
  | (.ok _, s) => s.runKernel strict suppress env normalized accelerated t

end Verif.Model
