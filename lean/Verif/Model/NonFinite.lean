import Verif.Model.PsfObj

/-!
# Model of calls with NaN and infinities

Python's `float` has, besides numbers, the infinities and NaN. The functions of Verif.Model.Radial and Verif.Model.Coeffs are written for any type of
numbers; here they run on these extended numbers. Finite numbers are exact. `RuntimeWarning`s of `numpy` are left out.
-/

namespace Verif.Model

/-- A `float`: a number, an infinity (`true`: negative) or NaN, numbers at /repo/src/zernpy/zernikepol.py:352-585. -/
inductive XFloat where
  | fin (x : ℝ)
  | inf (neg : Bool)
  | nan

namespace XFloat
open Classical

/-- `-x`, /repo/src/zernpy/calculations/calc_zernike_pol.py:421-426. -/
noncomputable def neg : XFloat → XFloat
  | fin x => fin (-x)
  | inf s => inf (!s)
  | nan => nan

/-- `x + y`, /repo/src/zernpy/calculations/calc_zernike_pol.py:107-205. -/
noncomputable def add : XFloat → XFloat → XFloat
  | nan, _ => nan
  | _, nan => nan
  | fin x, fin y => fin (x + y)
  | fin _, inf s => inf s
  | inf s, fin _ => inf s
  | inf s, inf t => if s = t then inf s else nan

/-- `x * y`, /repo/src/zernpy/calculations/calc_zernike_pol.py:107-205. -/
noncomputable def mul : XFloat → XFloat → XFloat
  | nan, _ => nan
  | _, nan => nan
  | fin x, fin y => fin (x * y)
  | fin x, inf s => if x = 0 then nan else inf (if x < 0 then !s else s)
  | inf s, fin y => if y = 0 then nan else inf (if y < 0 then !s else s)
  | inf s, inf t => inf (s != t)

/-- `x / y` for `y` that is not 0, /repo/src/zernpy/zernpsf.py:93-263. -/
noncomputable def div : XFloat → XFloat → XFloat
  | nan, _ => nan
  | _, nan => nan
  | fin x, fin y => fin (x / y)
  | fin _, inf _ => fin 0
  | inf s, fin y => inf (if y < 0 then !s else s)
  | inf _, inf _ => nan

/-- `numpy.power(x, k)` for an integer `k ≥ 0`: 1 for `k = 0`, also for NaN, /repo/src/zernpy/calculations/calc_zernike_pol.py:107-205. -/
noncomputable def pow : XFloat → ℕ → XFloat
  | fin x, k => fin (x ^ k)
  | inf s, k => if k = 0 then fin 1 else if k % 2 = 0 then inf false else inf s
  | nan, k => if k = 0 then fin 1 else nan

/-- `x < y`: never true if one of them is NaN, /repo/src/zernpy/zernikepol.py:1276-1288. -/
def lt : XFloat → XFloat → Prop
  | nan, _ => False
  | _, nan => False
  | fin x, fin y => x < y
  | fin _, inf s => s = false
  | inf s, fin _ => s = true
  | inf s, inf t => s = true ∧ t = false

/-- `x <= y`: never true if one of them is NaN, /repo/src/zernpy/zernpsf.py:188-237. -/
def le : XFloat → XFloat → Prop
  | nan, _ => False
  | _, nan => False
  | fin x, fin y => x ≤ y
  | fin _, inf s => s = false
  | inf s, fin _ => s = true
  | inf s, inf t => s = true ∨ t = false

/-- `abs(x)`, /repo/src/zernpy/zernpsf.py:205-237. -/
noncomputable def abs : XFloat → XFloat
  | fin x => fin |x|
  | inf _ => inf false
  | nan => nan

/-- `math.sqrt(x)` for `x` that is not negative, /repo/src/zernpy/calculations/calc_zernike_pol.py:75-80. -/
noncomputable def sqrt : XFloat → XFloat
  | fin x => fin (Real.sqrt x)
  | inf s => inf s
  | nan => nan

/-- `numpy.cos`, `numpy.sin`: NaN for the infinities, /repo/src/zernpy/calculations/calc_zernike_pol.py:421-426. -/
noncomputable def cos : XFloat → XFloat
  | fin x => fin (Real.cos x)
  | _ => nan
/-- `numpy.sin`: NaN for the infinities, /repo/src/zernpy/calculations/calc_zernike_pol.py:421-426. -/
noncomputable def sin : XFloat → XFloat
  | fin x => fin (Real.sin x)
  | _ => nan

/-- An operation on floats, /repo/src/zernpy/calculations/calc_zernike_pol.py:107-205. -/
noncomputable instance : Zero XFloat := ⟨fin 0⟩
/-- An operation on floats, /repo/src/zernpy/calculations/calc_zernike_pol.py:107-205. -/
noncomputable instance : One XFloat := ⟨fin 1⟩
/-- An operation on floats, /repo/src/zernpy/calculations/calc_zernike_pol.py:107-205. -/
noncomputable instance : Neg XFloat := ⟨neg⟩
/-- An operation on floats, /repo/src/zernpy/calculations/calc_zernike_pol.py:107-205. -/
noncomputable instance : Add XFloat := ⟨add⟩
/-- An operation on floats, /repo/src/zernpy/calculations/calc_zernike_pol.py:107-205. -/
noncomputable instance : Sub XFloat := ⟨fun x y => add x (neg y)⟩
/-- An operation on floats, /repo/src/zernpy/calculations/calc_zernike_pol.py:107-205. -/
noncomputable instance : Mul XFloat := ⟨mul⟩
/-- An operation on floats, /repo/src/zernpy/calculations/calc_zernike_pol.py:107-205. -/
noncomputable instance : NatCast XFloat := ⟨fun n => fin n⟩
/-- An operation on floats, /repo/src/zernpy/calculations/calc_zernike_pol.py:107-205. -/
noncomputable instance : IntCast XFloat := ⟨fun n => fin n⟩
/-- An operation on floats, /repo/src/zernpy/calculations/calc_zernike_pol.py:107-205. -/
noncomputable instance : Pow XFloat ℕ := ⟨pow⟩
/-- An operation on floats, /repo/src/zernpy/calculations/calc_zernike_pol.py:107-205. -/
noncomputable instance : OfRat XFloat := ⟨fun q => fin q⟩

/-- Arrays: scalars broadcast (the other operations are the elementwise ones of Mathlib), /repo/src/zernpy/calculations/calc_zernike_pol.py:107-205. -/
noncomputable instance {N : ℕ} : OfRat (Fin N → XFloat) := ⟨fun q _ => fin q⟩

end XFloat

/-- An argument `r` or `theta`: a `float` or a `numpy` array, /repo/src/zernpy/zernikepol.py:1276-1288. -/
inductive XNum where
  | scalar (x : XFloat)
  | array (shape : List Nat) (data : List XFloat)

open Classical in
/-- `numpy.min` (`neg = false`) / `numpy.max` (`neg = true`) of two numbers: NaN if one of them is NaN, /repo/src/zernpy/zernikepol.py:1283. -/
noncomputable def xMin (x y : XFloat) : XFloat :=
  match x, y with
  | .nan, _ => .nan
  | _, .nan => .nan
  | x, y => if y.lt x then y else x

open Classical in
/-- See `xMin`, /repo/src/zernpy/zernikepol.py:1283. -/
noncomputable def xMax (x y : XFloat) : XFloat :=
  match x, y with
  | .nan, _ => .nan
  | _, .nan => .nan
  | x, y => if x.lt y then y else x

open Classical in
/-- `_check_radii`, /repo/src/zernpy/zernikepol.py:1282-1287; `numpy.min` of an empty array is a `ValueError`. -/
noncomputable def checkRadiiX : XNum → Res XNum
  | .scalar x => if (XFloat.fin 1).lt x ∨ x.lt (.fin 0) then .error .valueError else .ok (.scalar x)
  | .array _ [] => .error .valueError
  | .array shape (x :: t) =>
    if (t.foldl xMin x).lt (.fin 0) ∨ (XFloat.fin 1).lt (t.foldl xMax x) then .error .valueError else .ok (.array shape (x :: t))

/-- An array as an element of `Fin N → XFloat`, /repo/src/zernpy/calculations/calc_zernike_pol.py:107-205. -/
def asFunX (data : List XFloat) : Fin data.length → XFloat := fun i => data.get i

/-- `ZernPol.radial`, /repo/src/zernpy/zernikepol.py:430-493 (without the warnings). -/
noncomputable def radialX (fuel : Nat) (m n : Int) (r : XNum) (exact : Bool) : CM XNum := do
  match ← CM.lift (checkRadiiX r) with
  | .scalar x => do
    let v ← radialValue fuel exact m n x
    pure (.scalar v)
  | .array shape data => do
    let v ← radialValue fuel exact m n (asFunX data)
    pure (.array shape (List.ofFn v))

/-- `ZernPol.radial_dr`, /repo/src/zernpy/zernikepol.py:524-585 (without the warnings). -/
noncomputable def radialDrX (fuel : Nat) (m n : Int) (r : XNum) (exact : Bool) : CM XNum := do
  match ← CM.lift (checkRadiiX r) with
  | .scalar x => do
    let v ← radialDrValue fuel exact m n x
    pure (.scalar v)
  | .array shape data => do
    let v ← radialDrValue fuel exact m n (asFunX data)
    pure (.array shape (List.ofFn v))

/-- `triangular_function`, /repo/src/zernpy/calculations/calc_zernike_pol.py:398-426. -/
noncomputable def triangularX (m : Int) (theta : XFloat) : XFloat :=
  if m ≥ 0 then ((m : XFloat) * theta).cos else -((m : XFloat) * theta).sin

/-- `ZernPol.polynomial_value` for two `float`s, /repo/src/zernpy/zernikepol.py:352-428 (without the warnings). -/
noncomputable def polynomialX (fuel : Nat) (m n : Int) (r theta : XFloat) (exact : Bool) : CM XFloat := do
  let _ ← CM.lift (checkRadiiX (.scalar r))
  if exact ∧ n > maxRadialOrderCoeffs then pure 0
  else do
    let v ← radialValue fuel exact m n r
    pure (XFloat.fin (normalizationFactor m n) * triangularX m theta * v)

open Classical in
/-- The loop of `sum_zernikes` after the first polynomial, for two `float`s, /repo/src/zernpy/zernikepol.py:962-969. -/
noncomputable def sumRestX (fuel : Nat) (r theta : XFloat) : List (XFloat × PolObj) → XFloat → CM XFloat
  | [], S => pure S
  | (c, o) :: rest, S =>
    if (XFloat.fin 0).lt c.abs then do
      let v ← polynomialX fuel o.m o.n r theta false
      sumRestX fuel r theta rest (S + c * v)
    else sumRestX fuel r theta rest S

/-- `ZernPol.sum_zernikes` for two `float`s and polynomials, /repo/src/zernpy/zernikepol.py:955-969. -/
noncomputable def sumZernikesX (fuel : Nat) (l : List (XFloat × PolObj)) (r theta : XFloat) : CM XFloat :=
  match l with
  | [] => CM.raise .valueError
  | (c, o) :: rest => do
    let v ← polynomialX fuel o.m o.n r theta false
    sumRestX fuel r theta rest (c * v)

/-- `int(round(x, 0))`: `ValueError` for NaN, `OverflowError` (`otherError`) for an infinity, /repo/src/zernpy/calculations/calc_psfs.py:331. -/
noncomputable def xRound : XFloat → Res Int
  | .fin x => .ok (rint x)
  | .nan => .error .valueError
  | .inf _ => .error .otherError

open Classical in
/-- `multiplier` in `get_kernel_size` before the amplitude is taken into account, for valid orders, /repo/src/zernpy/calculations/calc_psfs.py:309-322. -/
noncomputable def sizeMultX (m n : Int) (NA : XFloat) : XFloat :=
  if m = 0 ∧ n = 0 then
    if (XFloat.fin 0.25).lt NA ∧ NA.lt (.fin 1) then XFloat.fin 5 * (XFloat.fin 1 - NA) + .fin 1.5
    else XFloat.fin 4.5 + XFloat.fin 2.5 * ((XFloat.fin 1).div NA).sqrt
  else if |m| > 0 ∧ n % 2 ≠ 0 then .fin (1.25 * Real.sqrt n + 0.5 * Real.sqrt (n - |m| : ℤ))
  else if |m| > 0 ∧ n % 2 = 0 then .fin (1.45 * Real.sqrt n)
  else .fin (1.25 * Real.sqrt n)

/-- `size_ext` before the amplitude is taken into account, /repo/src/zernpy/calculations/calc_psfs.py:308,323-324. -/
noncomputable def sizeExtX (m n : Int) : Int :=
  if m = 0 ∧ n = 0 then 0 else if n - |m| ≤ (n + 1) / 2 then rint (Real.sqrt (n + |m| : ℤ)) + 1 else 0

open Classical in
/-- `multiplier` after the amplitude is taken into account, /repo/src/zernpy/calculations/calc_psfs.py:325-330. -/
noncomputable def amplMultX (mult alpha : XFloat) : XFloat :=
  if (XFloat.fin 0.5).le alpha.abs then mult * (XFloat.fin 2.5 * alpha.abs).sqrt
  else if (XFloat.fin 0.25).le alpha.abs then mult * (XFloat.fin 4.25 * alpha.abs).sqrt else mult

open Classical in
/-- `get_kernel_size` for valid orders, /repo/src/zernpy/calculations/calc_psfs.py:306-335. -/
noncomputable def getKernelSizeX (m n : Int) (px alpha wavelength NA : XFloat) : Res Int := do
  let ext := sizeExtX m n
  let ext' : Int := if (XFloat.fin 0.5).le alpha.abs then ext + 2 else if (XFloat.fin 0.25).le alpha.abs then ext + 1 else ext
  let rounded ← xRound ((amplMultX (sizeMultX m n NA) alpha * wavelength).div px)
  let size : Int := rounded + 1 + ext'
  pure (if size % 2 = 0 then size + 1 else size)

open Classical in
/-- `set_physical_props` of an object with one polynomial (with valid orders) and a `float` coefficient, /repo/src/zernpy/zernpsf.py:187-242,263: the kernel
size if the properties are accepted. -/
noncomputable def setPhysicalPropsX (m n : Int) (NA wavelength coeff px : XFloat) : Res Int :=
  if NA.lt (.fin 0) ∨ (XFloat.fin 1.7).lt NA then .error .valueError
  else if wavelength.le (.fin 0) then .error .valueError
  else if NA = .fin 0 then .error .zeroDivisionError
  else if px.le (.fin 0) then .error .valueError
  else if ((XFloat.fin (0.5 * 0.5) * wavelength).div NA).lt px then .error .valueError
  else getKernelSizeX m n px (coeff.div wavelength) wavelength NA

end Verif.Model
