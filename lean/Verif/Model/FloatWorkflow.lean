import Verif.Model.FloatConvolve
import Verif.Model.FloatFit
import Verif.Model.FloatKernelSize
import Verif.Model.FloatNumba

/-!
# Model of `calculate_psf_kernel` in floating-point arithmetic

The Airy pattern, and the choice of the kernel function by an object.
-/

namespace Verif.Model

open Classical in
/-- `airy_ref_pattern`, /repo/src/zernpy/calculations/calc_psfs.py:46-68, in the arithmetic `F`; `j1` is `scipy.special.jv(1, ·)`. The argument is a `numpy.float64`: `round(r, 12)`
is `numpy.round`. -/
noncomputable def fltAiryRef (F : PsfArith) (j1 : ℝ → ℝ) (r : ℝ) : ℝ :=
  let r := fltRound F 12 r
  let ratio := if r = 0 then F.fl (j1 (F.fl 1e-11) / F.fl 1e-11) else F.fl (j1 r / r)
  F.fl (4 * F.sq ratio)

open Classical in
/-- `get_psf_kernel` with the Airy pattern, for a given kernel size, /repo/src/zernpy/calculations/calc_psfs.py:338-488, in the arithmetic `F`. -/
noncomputable def fltAiryKernel (F : PsfArith) (j1 : ℝ → ℝ) (q : KernelParams) : CM Grid :=
  if q.wavelength = 0 then CM.raise .zeroDivisionError
  else
    let k := F.fl (F.fl (2 * F.pi) / q.wavelength)
    let size := makeOdd q.kernelSize
    fltMakeKernel F size q.NA (fun i j => pure (fltAiryRef F j1 (fltKernelDist F size k q.NA q.len2pixels i j))) q.normalize

open Classical in
/-- `get_psf_kernel` as called by the class, /repo/src/zernpy/calculations/calc_psfs.py:338-488, in the arithmetic `F`; the size of a kernel below 3 is estimated in double precision
(lines 393-396). -/
noncomputable def fltGetPsfKernel (F : PsfArith) (fuel : Nat) (j1 : ℝ → ℝ) (o : PolObj) (coeff : ℝ) (q : KernelParams) (airy : Bool) : CM Grid :=
  if q.wavelength = 0 then CM.raise .zeroDivisionError
  else do
  let size0 ← CM.lift (if q.kernelSize < 3 then getKernelSize64 o.m o.n q.len2pixels (F.fl (coeff / q.wavelength)) q.wavelength q.NA else .ok q.kernelSize)
  if airy then fltAiryKernel F j1 { q with kernelSize := size0 } else fltPsfKernel F fuel o coeff { q with kernelSize := size0 }

/-- The call of a kernel function, /repo/src/zernpy/zernpsf.py:389-420, in floating-point arithmetic; `none` if there are no polynomials. The plain functions compute in `F`, the
compiled ones in `F'`. -/
noncomputable def PsfObj.kernelCallFl (F F' : PsfArith) (env : Env) (o : PsfObj) (normalized : Bool) (accelerated : Option Bool) : Option (CM Grid) :=
  match o.zernpol with
  | some z =>
    some (if env.accelerate accelerated then fltPsfKernelComp F' z.obj o.expansionCoeff (o.params normalized)
      else fltGetPsfKernel F env.fuel env.j1 z.obj o.expansionCoeff (o.params normalized) o.airy)
  | none =>
    match o.polynomials with
    | [] => none
    | ps =>
      match o.amplitudes with
      | none => some (CM.raise (o.amplitudeError (env.accelerate accelerated)))
      | some as =>
        some (if as.length < ps.length then CM.raise (o.amplitudeError (env.accelerate accelerated))
          else if env.accelerate accelerated then fltPsfKernelCompPols F' (as.zip (ps.map ZernPol.obj)) (o.params normalized)
          else fltPsfKernelZerns F env.fuel (as.zip (ps.map ZernPol.obj)) (o.params normalized))

/-- `calculate_psf_kernel`, /repo/src/zernpy/zernpsf.py:322-429, in floating-point arithmetic. -/
noncomputable def PsfObj.calculateFl (F F' : PsfArith) (env : Env) (o : PsfObj) (suppress normalized : Bool) (accelerated : Option Bool) (s : CoefState) :
    Res Grid × PsfObj × CoefState :=
  let o := if ¬ o.propsSet ∧ ¬ suppress then { o with kernelSize := 19 } else o
  match o.kernelCallFl F F' env normalized accelerated with
  | none => (.ok o.kernel, o, s)
  | some x =>
    match x s with
    | (.error e, s') => (.error e, o, s')
    | (.ok g, s') => (.ok g, { o with kernel := g }, s')

/-- `ZernPSF.convolute_img`, /repo/src/zernpy/zernpsf.py:462-479, in the arithmetic `F`: the convolution with the kernel of the object. -/
noncomputable def PsfObj.convoluteImgFl (F : PsfArith) (overflow : ℝ → ℝ) (o : PsfObj) (dtype : DType) (img : Grid) (scale2original : Bool) : Res (Option Grid) :=
  fltConvoluteImg F overflow dtype img o.kernel scale2original

end Verif.Model
