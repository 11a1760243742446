import Verif.Model.PsfObj
import Verif.Model.Float

/-!
# Model of the estimation of the kernel size in double precision

`calc_psfs.get_kernel_size` and `ZernPSF.set_physical_props` on doubles: every operation is rounded (`binary64`; `math.sqrt` is correctly rounded).
Overflow is not modelled.
-/

namespace Verif.Model

/-- `math.sqrt` of a double, /repo/src/zernpy/calculations/calc_psfs.py:314-332. -/
noncomputable def sqrt64 (x : ℝ) : ℝ := binary64 (Real.sqrt x)

open Classical in
/-- The factor and `size_ext` before the amplitude is taken into account, /repo/src/zernpy/calculations/calc_psfs.py:309-324, in double precision.
`math.sqrt` of a negative number is a `ValueError`. -/
noncomputable def sizeMultiplier64 (m n : Int) (NA : ℝ) : Res (ℝ × Int) :=
  if m = 0 ∧ n = 0 then
    if 0.25 < NA ∧ NA < 1 then .ok (binary64 (binary64 (5 * binary64 (1 - NA)) + 1.5), 0)
    else if NA = 0 then .error .zeroDivisionError
    else if NA < 0 then .error .valueError
    else .ok (binary64 (4.5 + binary64 (2.5 * sqrt64 (binary64 (1 / NA)))), 0)
  else if n < 0 then .error .valueError
  else if |m| > 0 ∧ n % 2 ≠ 0 ∧ n - |m| < 0 then .error .valueError
  else
    let mult : ℝ :=
      if |m| > 0 ∧ n % 2 ≠ 0 then
        binary64 (binary64 (1.25 * sqrt64 (binary64 n)) + binary64 (0.5 * sqrt64 (binary64 (n - |m| : ℤ))))
      else if |m| > 0 ∧ n % 2 = 0 then binary64 (binary64 1.45 * sqrt64 (binary64 n))
      else binary64 (1.25 * sqrt64 (binary64 n))
    .ok (mult, if n - |m| ≤ (n + 1) / 2 then rint (sqrt64 (binary64 (n + |m| : ℤ))) + 1 else 0)

open Classical in
/-- `get_kernel_size`, /repo/src/zernpy/calculations/calc_psfs.py:285-335, in double precision; the pixel size is not 0. -/
noncomputable def getKernelSize64 (m n : Int) (len2pixels alpha wavelength NA : ℝ) : Res Int := do
  let (mult, ext) ← sizeMultiplier64 m n NA
  let mult' : ℝ := if |alpha| ≥ 0.5 then binary64 (mult * sqrt64 (binary64 (2.5 * |alpha|)))
    else if |alpha| ≥ 0.25 then binary64 (mult * sqrt64 (binary64 (4.25 * |alpha|))) else mult
  let ext' : Int := if |alpha| ≥ 0.5 then ext + 2 else if |alpha| ≥ 0.25 then ext + 1 else ext
  let size : Int := rint (binary64 (binary64 (mult' * wavelength) / len2pixels)) + 1 + ext'
  pure (if size % 2 = 0 then size + 1 else size)

open Classical in
/-- The loop over the polynomials for the maximal kernel size and amplitude, /repo/src/zernpy/zernpsf.py:244-251, in double precision. -/
noncomputable def sizeLoop64 (px wl NA : ℝ) : List ZernPol → List ℝ → Int × ℝ → Res (Int × ℝ)
  | [], _, acc => .ok acc
  | _ :: _, [], _ => .error .indexError
  | p :: ps, a :: as, (size, ampl) => do
    let s ← getKernelSize64 p.m p.n px a wl NA
    sizeLoop64 px wl NA ps as (if size < s then s else size, if ampl < |a| then |a| else ampl)

open Classical in
/-- The enlargement of the maximal size, /repo/src/zernpy/zernpsf.py:252-262, in double precision; `n` is the number of polynomials. -/
noncomputable def enlarge64 (size : Int) (ampl : ℝ) (n : Nat) : Int :=
  makeOdd (if 0.25 ≤ ampl ∧ ampl < 0.5 then size + rint (binary64 (binary64 0.6 * n))
    else if 0.5 ≤ ampl ∧ ampl < 0.75 then size + rint (binary64 (1.0 * n))
    else if ampl ≥ 0.75 then size + rint (binary64 (binary64 1.4 * n))
    else size)

/-- Storing a single coefficient, /repo/src/zernpy/zernpsf.py:214,238, in double precision. -/
noncomputable def PsfObj.storeOne64 (o : PsfObj) (x : ℝ) : PsfObj := { o with expansionCoeff := x, alpha := binary64 (x / o.wavelength) }

/-- The part of `set_physical_props` for the coefficient(s), /repo/src/zernpy/zernpsf.py:204-238, in double precision. -/
noncomputable def PsfObj.storeCoeff64 (o : PsfObj) : CoeffArg → Res Unit × PsfObj
  | .seq l =>
    if l.length ≠ o.polynomials.length then
      match l with
      | [x] => if o.polynomials.length = 0 then (.ok (), o.storeOne64 x) else (.error .valueError, o)
      | _ => (.error .valueError, o)
    else
      let o' := { o with coefficients := some l }
      match npMax l with
      | .error e => (.error e, o')
      | .ok _ => (.ok (), { o' with amplitudes := some (l.map fun x => binary64 (x / o.wavelength)) })
  | .num x =>
    if o.zernpol = none ∧ o.polynomials.length > 1 then (.error .valueError, o) else (.ok (), o.storeOne64 x)
  | .bad e =>
    if o.zernpol = none ∧ o.polynomials.length > 1 then (.error .valueError, o) else (.error e, o)

/-- The estimation of the kernel size, /repo/src/zernpy/zernpsf.py:239-262, in double precision. -/
noncomputable def PsfObj.estimateSize64 (o : PsfObj) : Res Int :=
  match o.zernpol with
  | some z => getKernelSize64 z.m z.n o.pixelSize o.alpha o.wavelength o.NA
  | none =>
    match o.polynomials, o.amplitudes with
    | _ :: _, none => .error .typeError
    | ps, as => do
      let (size, ampl) ← sizeLoop64 o.pixelSize o.wavelength o.NA ps (as.getD []) (0, 0)
      pure (enlarge64 size ampl ps.length)

open Classical in
/-- `set_physical_props`, /repo/src/zernpy/zernpsf.py:151-263, in double precision. The stored wavelength is never 0. -/
noncomputable def PsfObj.setPhysicalProps64 (o : PsfObj) (NA wavelength : ℝ) (coeff : CoeffArg) (px : ℝ) : Res Unit × PsfObj :=
  if NA < 0 ∨ NA > binary64 1.7 then (.error .valueError, o)
  else if wavelength ≤ 0 then (.error .valueError, o)
  else
    let o := { o with k := binary64 (2 * binary64 Real.pi / o.wavelength) }
    let o := { o with NA := NA, wavelength := wavelength }
    if NA = 0 then (.error .zeroDivisionError, o)
    else
      let o := { o with nyquist := binary64 (binary64 (0.5 * 0.5 * wavelength) / NA) }
      if px ≤ 0 then (.error .valueError, o)
      else if px > o.nyquist then (.error .valueError, o)
      else
        let o := { o with pixelSize := px }
        match o.storeCoeff64 coeff with
        | (.error e, o) => (.error e, o)
        | (.ok _, o) =>
          match o.estimateSize64 with
          | .error e => (.error e, o)
          | .ok size => (.ok (), { o with kernelSize := size, propsSet := true })

open Classical in
/-- `crop_kernel`, /repo/src/zernpy/zernpsf.py:505-549, in double precision. -/
noncomputable def PsfObj.crop64 (o : PsfObj) (part : ℝ) : Res Unit × PsfObj :=
  if o.kernelSize > 3 then
    match npMax o.kernel.elems with
    | .error e => (.error e, o)
    | .ok top =>
      if part ≤ 0 then (.error .valueError, o)
      else if part ≥ 0.5 then (.error .valueError, o)
      else
        match cropSteps o.kernel (binary64 (part * top)) (o.kernel.rows + 1) 0 with
        | .error e => (.error e, o)
        | .ok step =>
          if step > 0 then (.ok (), { o with kernel := o.kernel.inner step, kernelSize := (o.kernel.inner step).rows }) else (.ok (), o)
  else (.ok (), o)

end Verif.Model
