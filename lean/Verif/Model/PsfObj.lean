import Verif.Model.PsfNumba

/-!
# Model of the class `ZernPSF`, `zernpsf.py`: construction, properties, calculation, cropping

Every method gives its result (or exception) and the object after it, also when an exception is raised. Warnings, printing and plots are left out.
Numbers are real numbers (no NaN, no infinities).
-/

namespace Verif.Model

/-- The attributes of a `ZernPSF` object, /repo/src/zernpy/zernpsf.py:70-84. The attributes for warnings, the parallel calculation and the path
are left out. -/
structure PsfObj where
  kernel : Grid
  kernelSize : Int
  NA : ℝ
  wavelength : ℝ
  expansionCoeff : ℝ
  zernpol : Option ZernPol
  polynomials : List ZernPol
  propsSet : Bool
  nyquist : ℝ
  pixelSize : ℝ
  alpha : ℝ
  airy : Bool
  nR : Int
  nPhi : Int
  k : ℝ
  coefficients : Option (List ℝ)
  amplitudes : Option (List ℝ)

/-- The piston `ZernPol(m=0, n=0)`, /repo/src/zernpy/zernpsf.py:73. -/
def pistonPol : ZernPol := ⟨0, 0, getOsaIndex 0 0, getNollIndex 0 0, getFringeIndexPy 0 0⟩

/-- The predefined values of the class, /repo/src/zernpy/zernpsf.py:70-84. -/
noncomputable def psfDefault : PsfObj where
  kernel := ⟨1, 1, fun _ _ => 1⟩
  kernelSize := 1
  NA := 1
  wavelength := 0.532
  expansionCoeff := 0.5
  zernpol := some pistonPol
  polynomials := []
  propsSet := false
  nyquist := 0.5 * 0.5 * 0.532
  pixelSize := 0.98 * (0.5 * 0.5 * 0.532)
  alpha := 0.5 / 0.532
  airy := false
  nR := 320
  nPhi := 300
  k := 2 * Real.pi / 0.532
  coefficients := none
  amplitudes := none

/-- The argument of the constructor: a `ZernPol`, a sequence (an object with `__len__` and integer indices), or anything else, /repo/src/zernpy/zernpsf.py:109-148. -/
inductive PsfArg where
  | pol (z : ZernPol)
  | seq (l : List Operand)
  | other

/-- `m == 0 and n == 0`, /repo/src/zernpy/zernpsf.py:112,/repo/src/zernpy/zernpsf.py:137. -/
def ZernPol.isPiston (z : ZernPol) : Bool := decide (z.m = 0 ∧ z.n = 0)

/-- All members of the sequence if they are `ZernPol` instances, /repo/src/zernpy/zernpsf.py:131-138. -/
def allPols : List Operand → Option (List ZernPol)
  | [] => some []
  | .other :: _ => none
  | .zern z :: rest => (allPols rest).map (z :: ·)

/-- `ZernPSF.__init__`, /repo/src/zernpy/zernpsf.py:87-148. In the last branch (not a `ZernPol`, no `__len__`) the `ValueError` is constructed but
not raised. -/
noncomputable def psfInit : PsfArg → Res PsfObj
  | .pol z => .ok { psfDefault with zernpol := some z, airy := z.isPiston }
  | .seq [] => .error .valueError
  | .seq [.zern z] => .ok { psfDefault with zernpol := some z, airy := z.isPiston }
  | .seq [.other] => .error .attributeError
  | .seq l =>
    match allPols l with
    | none => .error .valueError
    | some zs =>
      if (zs.map ZernPol.osa).dedup.length < (zs.map ZernPol.osa).length then .error .valueError
      else .ok { psfDefault with polynomials := zs, zernpol := none, airy := zs.any ZernPol.isPiston }
  | .other => .ok psfDefault

/-- The argument `expansion_coeff`: a number, a sequence of numbers, or an object without `__len__` for which `float()` raises, /repo/src/zernpy/zernpsf.py:205-237. -/
inductive CoeffArg where
  | num (x : ℝ)
  | seq (l : List ℝ)
  | bad (e : PyErr)

/-- Storing a single coefficient, /repo/src/zernpy/zernpsf.py:214,238. -/
noncomputable def PsfObj.storeOne (o : PsfObj) (x : ℝ) : PsfObj := { o with expansionCoeff := x, alpha := x / o.wavelength }

/-- The part of `set_physical_props` for the coefficient(s), /repo/src/zernpy/zernpsf.py:204-238. -/
noncomputable def PsfObj.storeCoeff (o : PsfObj) : CoeffArg → Res Unit × PsfObj
  | .seq l =>
    if l.length ≠ o.polynomials.length then
      match l with
      | [x] => if o.polynomials.length = 0 then (.ok (), o.storeOne x) else (.error .valueError, o)
      | _ => (.error .valueError, o)
    else
      let o' := { o with coefficients := some l }
      match npMax l with
      | .error e => (.error e, o')
      | .ok _ => (.ok (), { o' with amplitudes := some (l.map (· / o.wavelength)) })
  | .num x =>
    if o.zernpol = none ∧ o.polynomials.length > 1 then (.error .valueError, o) else (.ok (), o.storeOne x)
  | .bad e =>
    if o.zernpol = none ∧ o.polynomials.length > 1 then (.error .valueError, o) else (.error e, o)

open Classical in
/-- The loop over the polynomials for the maximal kernel size and amplitude, /repo/src/zernpy/zernpsf.py:245-251. -/
noncomputable def sizeLoop (px wl NA : ℝ) : List ZernPol → List ℝ → Int × ℝ → Res (Int × ℝ)
  | [], _, acc => .ok acc
  | _ :: _, [], _ => .error .indexError
  | p :: ps, a :: as, (size, ampl) => do
    let s ← getKernelSize p.m p.n px a wl NA
    sizeLoop px wl NA ps as (if size < s then s else size, if ampl < |a| then |a| else ampl)

open Classical in
/-- The enlargement of the maximal size, /repo/src/zernpy/zernpsf.py:252-262; `n` is the number of polynomials. -/
noncomputable def enlarge (size : Int) (ampl : ℝ) (n : Nat) : Int :=
  makeOdd (if 0.25 ≤ ampl ∧ ampl < 0.5 then size + rint (0.6 * n)
    else if 0.5 ≤ ampl ∧ ampl < 0.75 then size + rint (1.0 * n)
    else if ampl ≥ 0.75 then size + rint (1.4 * n)
    else size)

/-- The estimation of the kernel size, /repo/src/zernpy/zernpsf.py:239-262. -/
noncomputable def PsfObj.estimateSize (o : PsfObj) : Res Int :=
  match o.zernpol with
  | some z => getKernelSize z.m z.n o.pixelSize o.alpha o.wavelength o.NA
  | none =>
    match o.polynomials, o.amplitudes with
    | _ :: _, none => .error .typeError
    | ps, as => do
      let (size, ampl) ← sizeLoop o.pixelSize o.wavelength o.NA ps (as.getD []) (0, 0)
      pure (enlarge size ampl ps.length)

open Classical in
/-- `set_physical_props`, /repo/src/zernpy/zernpsf.py:151-263. The stored wavelength is never 0. -/
noncomputable def PsfObj.setPhysicalProps (o : PsfObj) (NA wavelength : ℝ) (coeff : CoeffArg) (px : ℝ) : Res Unit × PsfObj :=
  if NA < 0 ∨ NA > 1.7 then (.error .valueError, o)
  else if wavelength ≤ 0 then (.error .valueError, o)
  else
    let o := { o with k := 2 * Real.pi / o.wavelength }
    let o := { o with NA := NA, wavelength := wavelength }
    if NA = 0 then (.error .zeroDivisionError, o)
    else
      let o := { o with nyquist := 0.5 * 0.5 * wavelength / NA }
      if px ≤ 0 then (.error .valueError, o)
      else if px > o.nyquist then (.error .valueError, o)
      else
        let o := { o with pixelSize := px }
        match o.storeCoeff coeff with
        | (.error e, o) => (.error e, o)
        | (.ok _, o) =>
          match o.estimateSize with
          | .error e => (.error e, o)
          | .ok size => (.ok (), { o with kernelSize := size, propsSet := true })

/-- `set_calculation_props`, /repo/src/zernpy/zernpsf.py:265-319. -/
def PsfObj.setCalculationProps (o : PsfObj) (size nR nPhi : Int) : Res Unit × PsfObj :=
  if size < 3 then (.error .valueError, o)
  else
    let o := { o with kernelSize := makeOdd size }
    if nR < 20 then (.error .valueError, o)
    else if nPhi < 36 then (.error .valueError, o)
    else (.ok (), { o with nR := nR, nPhi := nPhi })

/-- The parameters passed to the kernel functions, /repo/src/zernpy/zernpsf.py:391-420. -/
noncomputable def PsfObj.params (o : PsfObj) (normalized : Bool) : KernelParams where
  len2pixels := o.pixelSize
  wavelength := o.wavelength
  NA := o.NA
  nR := o.nR
  nPhi := o.nPhi
  normalize := normalized
  kernelSize := o.kernelSize

/-- The environment of the process: whether `numba` is installed, the recursion limit, `scipy.special.jv(1, ·)`, /repo/src/zernpy/zernpsf.py:17-48. -/
structure Env where
  numba : Bool
  fuel : Nat
  j1 : ℝ → ℝ

/-- `accelerated` after the defaults, and whether the accelerated functions are called, /repo/src/zernpy/zernpsf.py:376-380,390,397. -/
def Env.accelerate (env : Env) (accelerated : Option Bool) : Bool := (accelerated.getD env.numba) && env.numba

open Classical in
/-- The exception if no amplitudes, or less than the polynomials, are stored: from `amplitudes[i]`, /repo/src/zernpy/calculations/calc_psfs.py:526-528
(after the division by `NA`). `numba` fails with its own exception for `None`, and does not check the index: both are modelled as `otherError`. -/
noncomputable def PsfObj.amplitudeError (o : PsfObj) (accelerated : Bool) : PyErr :=
  if o.NA = 0 then .zeroDivisionError
  else if accelerated then .otherError
  else if o.amplitudes = none then .typeError
  else .indexError

/-- The call of a kernel function, /repo/src/zernpy/zernpsf.py:389-420; `none` if there are no polynomials. -/
noncomputable def PsfObj.kernelCall (env : Env) (o : PsfObj) (normalized : Bool) (accelerated : Option Bool) : Option (CM Grid) :=
  match o.zernpol with
  | some z =>
    some (if env.accelerate accelerated then getPsfKernelComp z.obj o.expansionCoeff (o.params normalized)
      else getPsfKernel env.fuel env.j1 z.obj o.expansionCoeff (o.params normalized) o.airy)
  | none =>
    match o.polynomials with
    | [] => none
    | ps =>
      match o.amplitudes with
      | none => some (CM.raise (o.amplitudeError (env.accelerate accelerated)))
      | some as =>
        some (if as.length < ps.length then CM.raise (o.amplitudeError (env.accelerate accelerated))
          else if env.accelerate accelerated then getPsfKernelCompPols (as.zip (ps.map ZernPol.obj)) (o.params normalized)
          else getPsfKernelZerns env.fuel (as.zip (ps.map ZernPol.obj)) (o.params normalized))

/-- `calculate_psf_kernel`, /repo/src/zernpy/zernpsf.py:322-429. -/
noncomputable def PsfObj.calculate (env : Env) (o : PsfObj) (suppress normalized : Bool) (accelerated : Option Bool) (s : CoefState) :
    Res Grid × PsfObj × CoefState :=
  let o := if ¬ o.propsSet ∧ ¬ suppress then { o with kernelSize := 19 } else o
  match o.kernelCall env normalized accelerated with
  | none => (.ok o.kernel, o, s)
  | some x =>
    match x s with
    | (.error e, s') => (.error e, o, s')
    | (.ok g, s') => (.ok g, { o with kernel := g }, s')

/-- Row `i` of an array, `kernel[i, :]`; `IndexError` outside (negative indices count from the end), /repo/src/zernpy/zernpsf.py:537-538. -/
def Grid.row (g : Grid) (i : Int) : Res (List ℝ) :=
  if 0 ≤ i ∧ i < g.rows then .ok ((List.range g.cols).map (g.entry i.toNat))
  else if i < 0 ∧ -i ≤ g.rows then .ok ((List.range g.cols).map (g.entry (i + g.rows).toNat))
  else .error .indexError

/-- Column `j` of an array, `kernel[:, j]`, /repo/src/zernpy/zernpsf.py:539-540. -/
def Grid.col (g : Grid) (j : Int) : Res (List ℝ) :=
  if 0 ≤ j ∧ j < g.cols then .ok ((List.range g.rows).map fun i => g.entry i j.toNat)
  else if j < 0 ∧ -j ≤ g.cols then .ok ((List.range g.rows).map fun i => g.entry i (j + g.cols).toNat)
  else .error .indexError

open Classical in
/-- `np.max(line) < min_kernel_value`, /repo/src/zernpy/zernpsf.py:537-540. -/
noncomputable def lineBelow (v : ℝ) (line : Res (List ℝ)) : Res Bool := do
  let l ← line
  let top ← npMax l
  pure (decide (top < v))

/-- The four checks of one iteration, /repo/src/zernpy/zernpsf.py:537-540. -/
noncomputable def bordersBelow (g : Grid) (v : ℝ) (step : Nat) : Res Bool := do
  let u ← lineBelow v (g.row step)
  let b ← lineBelow v (g.row (g.rows - 1 - step))
  let l ← lineBelow v (g.col step)
  let r ← lineBelow v (g.col (g.cols - 1 - step))
  pure (u && b && l && r)

/-- The `while` loop, /repo/src/zernpy/zernpsf.py:535-546: the number of removed lines. `n` bounds the number of iterations; the row index
leaves the array (`IndexError`) after at most `rows` iterations, so `rows + 1` never limits it. -/
noncomputable def cropSteps (g : Grid) (v : ℝ) : Nat → Nat → Res Nat
  | 0, step => .ok step
  | n + 1, step => do
    let below ← bordersBelow g v step
    if below then cropSteps g v n (step + 1) else pure step

/-- `kernel[step:rows-step, step:cols-step]`, /repo/src/zernpy/zernpsf.py:545-549. -/
def Grid.inner (g : Grid) (step : Nat) : Grid := ⟨g.rows - 2 * step, g.cols - 2 * step, fun i j => g.entry (i + step) (j + step)⟩

open Classical in
/-- `crop_kernel`, /repo/src/zernpy/zernpsf.py:505-549. -/
noncomputable def PsfObj.crop (o : PsfObj) (part : ℝ) : Res Unit × PsfObj :=
  if o.kernelSize > 3 then
    match npMax o.kernel.elems with
    | .error e => (.error e, o)
    | .ok top =>
      if part ≤ 0 then (.error .valueError, o)
      else if part ≥ 0.5 then (.error .valueError, o)
      else
        match cropSteps o.kernel (part * top) (o.kernel.rows + 1) 0 with
        | .error e => (.error e, o)
        | .ok step =>
          if step > 0 then (.ok (), { o with kernel := o.kernel.inner step, kernelSize := (o.kernel.inner step).rows }) else (.ok (), o)
  else (.ok (), o)

end Verif.Model
