import Verif.Model.PsfObj

/-!
# Model of the warnings of the class `ZernPSF` and of `force_get_psf_compilation`

The functions give the warnings passed to `warnings.warn` by a call, in their order. The texts are left out; the filter `error` of the `warnings` module,
which makes them exceptions, is in Verif.Model.StrictWarn, the warnings of the polynomials in Verif.Model.PolyWarn. The message stored in the object is emptied after each warning, so the check of it at the beginning of
`calculate_psf_kernel` (/repo/src/zernpy/zernpsf.py:369-370) finds nothing.
-/

namespace Verif.Model

/-- The warnings of a `ZernPSF` object, one for each text, /repo/src/zernpy/zernpsf.py:151-429,/repo/src/zernpy/calculations/calc_psfs.py:411-415,/repo/src/zernpy/calculations/calc_psfs.py:470-478. -/
inductive PsfWarn where
  | bigCoefficient
  | sizeReduced
  | propsFirst
  | precision
  | defaultProps
  | noNumba
  | slowKernel
  | coarsePixels
  | border
  deriving DecidableEq

open Classical in
/-- `_sanity_check_expansion_coefficient`, /repo/src/zernpy/zernpsf.py:766-791, and the warning made of its result. -/
noncomputable def sanityWarning (normalized : ℝ) : List PsfWarn := if normalized > 10 then [.bigCoefficient] else []

/-- The warning about `max(np.max(coefficients), abs(np.min(coefficients)))`, /repo/src/zernpy/zernpsf.py:221-224; an empty sequence has raised the `ValueError`. -/
noncomputable def maxCoeffWarning (wavelength : ℝ) : Res ℝ → Res ℝ → List PsfWarn
  | .ok hi, .ok lo => sanityWarning (abs (max hi (abs lo)) / wavelength)
  | _, _ => []

/-- The warnings about the coefficient(s) in `set_physical_props`, /repo/src/zernpy/zernpsf.py:204-238; `wavelength` is the argument. -/
noncomputable def PsfObj.coeffWarnings (o : PsfObj) (wavelength : ℝ) : CoeffArg → List PsfWarn
  | .seq l =>
    if l.length ≠ o.polynomials.length then
      match l with
      | [x] => if o.polynomials.length = 0 then sanityWarning (|x| / wavelength) else []
      | _ => []
    else
      maxCoeffWarning wavelength (npMax l) (npMin l)
  | .num x => if o.zernpol = none ∧ o.polynomials.length > 1 then [] else sanityWarning (|x| / wavelength)
  | .bad _ => []

open Classical in
/-- The warnings of `set_physical_props`, whether it returns or raises, /repo/src/zernpy/zernpsf.py:151-263. -/
noncomputable def PsfObj.setPhysicalPropsWarnings (o : PsfObj) (NA wavelength : ℝ) (coeff : CoeffArg) (px : ℝ) : List PsfWarn :=
  if NA < 0 ∨ NA > 1.7 then []
  else if wavelength ≤ 0 then []
  else if NA = 0 then []
  else if px ≤ 0 then []
  else if px > 0.5 * 0.5 * wavelength / NA then []
  else o.coeffWarnings wavelength coeff

/-- The warnings of `set_calculation_props`, whether it returns or raises, /repo/src/zernpy/zernpsf.py:265-319. -/
def PsfObj.setCalculationPropsWarnings (o : PsfObj) (size nR nPhi : Int) : List PsfWarn :=
  if size < 3 then []
  else
    (if o.propsSet then (if makeOdd size < o.kernelSize then [.sizeReduced] else []) else [.propsFirst]) ++
      (if nR < 20 then [] else if nPhi < 36 then [] else if nR > 500 ∧ nPhi > 400 then [.precision] else [])

/-- `kernel_border_max`, /repo/src/zernpy/calculations/calc_psfs.py:471-474, with the same lines in /repo/src/zernpy/calculations/calc_psfs.py:697-700 and
/repo/src/zernpy/calculations/calc_psfs_numba.py:387-390. -/
noncomputable def borderMax (g : Grid) : Res ℝ := do
  let firstCol ← g.col 0
  let a ← npMax firstCol
  let firstRow ← g.row 0
  let b ← npMax firstRow
  let lastCol ← g.col ((g.rows : Int) - 1)
  let c ← npMax lastCol
  let lastRow ← g.row ((g.rows : Int) - 1)
  let d ← npMax lastRow
  npMax [a, b, c, d]

open Classical in
/-- The warning about the border of a kernel, /repo/src/zernpy/calculations/calc_psfs.py:475-478. -/
noncomputable def borderWarning (g : Grid) : List PsfWarn :=
  match borderMax g, npMax g.elems with
  | .ok b, .ok top => if b > top / 20 then [.border] else []
  | _, _ => []

open Classical in
/-- The warning about the pixel size, /repo/src/zernpy/calculations/calc_psfs.py:411-415. -/
noncomputable def coarseWarning (q : KernelParams) : List PsfWarn := if q.len2pixels > 0.5 * 0.61 * q.wavelength / q.NA then [.coarsePixels] else []

/-- The warning about the calculation time in `get_psf_kernel_comp`, /repo/src/zernpy/calculations/calc_psfs_numba.py:327-330. -/
def slowWarning (size : Int) : List PsfWarn := if makeOdd size > 85 then [.slowKernel] else []

/-- The warnings of `calculate_psf_kernel`, /repo/src/zernpy/zernpsf.py:322-429, with those of the functions called by it; if the calculation raises an exception, the ones before the kernel function. -/
noncomputable def PsfObj.calculateWarnings (env : Env) (o : PsfObj) (suppress normalized : Bool) (accelerated : Option Bool) (s : CoefState) : List PsfWarn :=
  if suppress then []
  else
    let pre : List PsfWarn := (if o.propsSet then [] else [.defaultProps]) ++ (if accelerated = some true ∧ ¬ env.numba then [.noNumba] else [])
    match o.calculate env suppress normalized accelerated s with
    | (.error _, _, _) => pre
    | (.ok g, o', _) =>
      if o.zernpol = none ∧ o.polynomials = [] then pre
      else pre ++ (if env.accelerate accelerated then slowWarning o'.kernelSize else []) ++ coarseWarning (o'.params normalized) ++ borderWarning g

/-! ### `force_get_psf_compilation` -/

/-- The warnings of `force_get_psf_compilation`, /repo/src/zernpy/zernpsf.py:810-843. -/
inductive CompileWarn where
  | recommended
  | unparsed
  | notInstalled
  deriving DecidableEq

/-- `version('numba').split('.')`: the integer that `int()` makes of each part, `none` where it raises the `ValueError`, /repo/src/zernpy/zernpsf.py:23. -/
abbrev VersionParts := List (Option Int)

/-- `int(numba_ver_n[i])`, /repo/src/zernpy/zernpsf.py:811-813. -/
def versionPart (v : VersionParts) (i : Nat) : Res Int :=
  match v[i]? with
  | none => .error .indexError
  | some none => .error .valueError
  | some (some x) => .ok x

/-- The conditions, /repo/src/zernpy/zernpsf.py:811-813. -/
def versionOutdated (v : VersionParts) : Res Bool := do
  let a ← versionPart v 0
  if a = 0 then
    let b ← versionPart v 1
    if b ≤ 57 then
      let c ← versionPart v 2
      pure (decide (c < 1))
    else pure false
  else pure false

/-- The check of the version, /repo/src/zernpy/zernpsf.py:810-816; only the `ValueError` is caught. -/
def versionWarnings (v : VersionParts) : Res (List CompileWarn) :=
  match versionOutdated v with
  | .ok true => .ok [.recommended]
  | .ok false => .ok []
  | .error .valueError => .ok [.unparsed]
  | .error e => .error e

/-- A new object with given polynomials and properties, and the kernel size set to `size` by assignment; then the accelerated calculation,
/repo/src/zernpy/zernpsf.py:818-829. -/
noncomputable def compileOne (env : Env) (arg : PsfArg) (NA wavelength : ℝ) (coeff : CoeffArg) (px : ℝ) (size : Int) (s : CoefState) : Res PsfObj × CoefState :=
  match psfInit arg with
  | .error e => (.error e, s)
  | .ok o =>
    match o.setPhysicalProps NA wavelength coeff px with
    | (.error e, _) => (.error e, s)
    | (.ok _, o) =>
      match ({ o with kernelSize := size } : PsfObj).calculate env true true (some true) s with
      | (.error e, _, s) => (.error e, s)
      | (.ok _, o, s) => (.ok o, s)

/-- `ZernPol(m=m, n=n)`, /repo/src/zernpy/zernpsf.py:819,825. -/
def makePol (m n : Int) : Res ZernPol := zernPolInit [("m", .int m), ("n", .int n)]

/-- The two calculations, /repo/src/zernpy/zernpsf.py:817-829. -/
noncomputable def compileBoth (env : Env) (s : CoefState) : Res (PsfObj × PsfObj) × CoefState :=
  match makePol (-1) 1 with
  | .error e => (.error e, s)
  | .ok zp =>
    match compileOne env (.pol zp) 0.2 0.55 (.num 0.042) (0.55 / 0.82) 1 s with
    | (.error e, s) => (.error e, s)
    | (.ok a, s) =>
      match (do
        let zp1 ← makePol (-2) 4
        let zp2 ← makePol 3 3
        let zp3 ← makePol 0 4
        pure [.zern zp1, .zern zp2, .zern zp3] : Res (List Operand)) with
      | .error e => (.error e, s)
      | .ok pols =>
        match compileOne env (.seq pols) 0.2 0.5 (.seq [-0.01, 0.043, 0.027]) (0.5 / 0.85) 3 s with
        | (.error e, s) => (.error e, s)
        | (.ok b, s) => (.ok (a, b), s)

/-- `force_get_psf_compilation`, /repo/src/zernpy/zernpsf.py:794-843; `numba` is the version of the installed package. The flag `methods_compiled`
(/repo/src/zernpy/calculations/calc_psfs_numba.py:557-566), which no other function reads, and the printing are left out. -/
noncomputable def forceCompilation (numba : Option VersionParts) (fuel : Nat) (j1 : ℝ → ℝ) (s : CoefState) : Res (Option (PsfObj × PsfObj)) × List CompileWarn × CoefState :=
  match numba with
  | none => (.ok none, [.notInstalled], s)
  | some v =>
    match versionWarnings v with
    | .error e => (.error e, [], s)
    | .ok w =>
      match compileBoth ⟨true, fuel, j1⟩ s with
      | (.error e, s) => (.error e, w, s)
      | (.ok p, s) => (.ok (some p), w, s)

end Verif.Model
