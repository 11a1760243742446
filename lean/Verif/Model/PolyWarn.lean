import Verif.Model.PsfObj
import Verif.Model.Methods

/-!
# Model of the warnings of the polynomials during a calculation of a kernel

Without acceleration the kernel functions call `polynomial_value`, which warns once per object about orders above 50. Neither `suppress_warnings` nor
anything else of the `ZernPSF` is passed to it. Objects are numbered (the same object may be in the list twice); `order` gives the radial order of an
object, `flags` its attribute `__show_slow_calc_warn`. The warnings about angles do not occur here: the angles are in `[0, 2*pi]`.
-/

namespace Verif.Model

/-- The flags of the polynomials and the objects that have warned, in order, /repo/src/zernpy/zernikepol.py:50. -/
structure SlowState where
  flags : Nat → Bool
  log : List Nat

/-- The slow-calculation warning in a call of `polynomial_value(p, phi)` of object `i`, /repo/src/zernpy/zernikepol.py:409-419; if the filter raises
warnings (`strict`), the flag is not set. `none`: no exception; `some i`: the warning of object `i` is raised. -/
def slowCall (strict : Bool) (order : Nat → Int) (i : Nat) (s : SlowState) : Option Nat × SlowState :=
  match slowWarn 50 (order i) false (s.flags i) with
  | (_, []) => (none, s)
  | (flag, _ :: _) =>
    if strict then (some i, s)
    else (none, ⟨fun j => if j = i then flag else s.flags j, s.log ++ [i]⟩)

/-- One evaluation of the sum of the polynomials (of one polynomial), /repo/src/zernpy/calculations/calc_psfs.py:102,524-528. -/
def slowPass (strict : Bool) (order : Nat → Int) : List Nat → SlowState → Option Nat × SlowState
  | [], s => (none, s)
  | i :: ids, s =>
    match slowCall strict order i s with
    | (some j, s) => (some j, s)
    | (none, s) => slowPass strict order ids s

/-- A number of such evaluations, /repo/src/zernpy/calculations/calc_psfs.py:133-135,266-275,423-447,672-692. -/
def slowPasses (strict : Bool) (order : Nat → Int) (ids : List Nat) : Nat → SlowState → Option Nat × SlowState
  | 0, s => (none, s)
  | k + 1, s =>
    match slowPass strict order ids s with
    | (some j, s) => (some j, s)
    | (none, s) => slowPasses strict order ids k s

/-- The number of evaluations for one pixel: three for each angle, /repo/src/zernpy/calculations/calc_psfs.py:131-136,264-275,563-565,593-600. -/
def passesPerPixel (nPhi : Int) : Nat := 3 * ((pyRange 2 (nPhi - 2) 2).length + (pyRange 1 (nPhi - 1) 2).length + 2)

/-- The number of evaluations in a calculation of a kernel with `pixels` elements; none in the accelerated ones and for the Airy pattern,
/repo/src/zernpy/zernpsf.py:389-420,/repo/src/zernpy/calculations/calc_psfs.py:434-450. -/
def PsfObj.passes (env : Env) (o : PsfObj) (accelerated : Option Bool) (pixels : Nat) : Nat :=
  if env.accelerate accelerated then 0
  else
    match o.zernpol with
    | some _ => if o.airy then 0 else pixels * passesPerPixel o.nPhi
    | none => if o.polynomials = [] then 0 else pixels * passesPerPixel o.nPhi

/-- The warnings of the polynomials in `calculate_psf_kernel`, where the calculation itself returns, /repo/src/zernpy/zernpsf.py:322-429. `ids` numbers the
polynomial(s) of the object. -/
noncomputable def PsfObj.calculateSlow (strict : Bool) (env : Env) (o : PsfObj) (suppress normalized : Bool) (accelerated : Option Bool) (t : CoefState)
    (order : Nat → Int) (ids : List Nat) (s : SlowState) : Option Nat × SlowState :=
  match o.calculate env suppress normalized accelerated t with
  | (.ok g, _, _) => slowPasses strict order ids (o.passes env accelerated (g.rows * g.cols)) s
  | (.error _, _, _) => (none, s)

end Verif.Model
