import Verif.Model.Coeffs
import Mathlib.Analysis.SpecialFunctions.Trigonometric.Basic
import Mathlib.Analysis.SpecialFunctions.Sqrt
import Mathlib.Algebra.Ring.Pi
import Mathlib.Algebra.Algebra.Pi

/-!
# Model of the evaluation methods of `ZernPol`

A call that evaluates on a `numpy` array runs the same code as on a `float`, with arrays as numbers: an array with `N` elements is an
element of the ring `Fin N → ℝ` (elementwise operations, scalars broadcast).
-/

namespace Verif.Model

/-- Argument `r` or `theta` of the evaluation methods, by what the type checks distinguish. `seq` is a `list` or `tuple` of numbers that
`numpy.asarray` turns into an array, `ragged` one it rejects, `set` a Python `set` (`numpy.asarray` makes a 0-dimensional *object* array of it),
`num` everything `float()` accepts, `notFloat e` everything it rejects with the exception `e`. Data are in row-major order, /repo/src/zernpy/zernikepol.py:1276-1288,/repo/src/zernpy/zernikepol.py:1315-1332. -/
inductive Arg where
  | num (x : ℝ)
  | arr (shape : List Nat) (data : List ℝ)
  | seq (shape : List Nat) (data : List ℝ)
  | set
  | ragged
  | notFloat (e : PyErr)

/-- A checked value: `float` or `numpy.ndarray`, /repo/src/zernpy/zernikepol.py:1276-1288. -/
inductive Num where
  | scalar (x : ℝ)
  | array (shape : List Nat) (data : List ℝ)

/-- The warnings, /repo/src/zernpy/zernikepol.py:408-428,/repo/src/zernpy/zernikepol.py:1323-1331. -/
inductive Warn where
  | angles | slow | highOrder
  deriving DecidableEq

/-- `numpy.min`: `ValueError` for an empty array, /repo/src/zernpy/zernikepol.py:1283,/repo/src/zernpy/zernikepol.py:1322-1325. -/
noncomputable def npMin : List ℝ → Res ℝ
  | [] => .error .valueError
  | x :: t => .ok (t.foldl min x)

/-- `numpy.max`: `ValueError` for an empty array, /repo/src/zernpy/zernikepol.py:1283,/repo/src/zernpy/zernikepol.py:1322-1325. -/
noncomputable def npMax : List ℝ → Res ℝ
  | [] => .error .valueError
  | x :: t => .ok (t.foldl max x)

open Classical in
/-- The range check on an array, /repo/src/zernpy/zernikepol.py:1282-1284. -/
noncomputable def checkRadiiArray (shape : List Nat) (data : List ℝ) : Res Num := do
  let lo ← npMin data
  if lo < 0 then .error .valueError
  else
    let hi ← npMax data
    if hi > 1 then .error .valueError else .ok (.array shape data)

open Classical in
/-- `_check_radii`, /repo/src/zernpy/zernikepol.py:1255-1288. `numpy.min` of the object array made of a set is the set, comparing it with
a number is a `TypeError`. -/
noncomputable def checkRadii : Arg → Res Num
  | .num x => if x > 1 ∨ x < 0 then .error .valueError else .ok (.scalar x)
  | .arr shape data => checkRadiiArray shape data
  | .seq shape data => checkRadiiArray shape data
  | .set => .error .typeError
  | .ragged => .error .valueError
  | .notFloat e => .error e

open Classical in
/-- The check on an array of angles, /repo/src/zernpy/zernikepol.py:1320-1326. -/
noncomputable def checkAnglesArray (shape : List Nat) (data : List ℝ) : Res (Num × List Warn) := do
  let hi ← npMax data
  let lo ← npMin data
  if hi - lo > 2 * Real.pi then .ok (.array shape data, [.angles])
  else if hi > 2 * Real.pi ∨ lo < 0 then .ok (.array shape data, [.angles])
  else .ok (.array shape data, [])

open Classical in
/-- `_check_angles`, /repo/src/zernpy/zernikepol.py:1291-1331. -/
noncomputable def checkAngles : Arg → Res (Num × List Warn)
  | .num x => .ok (.scalar x, if x < 0 ∨ x > 2 * Real.pi then [.angles] else [])
  | .arr shape data => checkAnglesArray shape data
  | .seq shape data => checkAnglesArray shape data
  | .set => .error .typeError
  | .ragged => .error .valueError
  | .notFloat e => .error e

/-- `normalization_factor`, /repo/src/zernpy/calculations/calc_zernike_pol.py:56-80. -/
noncomputable def normalizationFactor (m n : Int) : ℝ :=
  if m = 0 then Real.sqrt ((n + 1 : Int) : ℝ) else Real.sqrt ((2 * (n + 1) : Int) : ℝ)

/-- `triangular_function`, /repo/src/zernpy/calculations/calc_zernike_pol.py:398-426, at one angle. -/
noncomputable def triangularFunction (m : Int) (theta : ℝ) : ℝ :=
  if m ≥ 0 then Real.cos ((m : ℝ) * theta) else -Real.sin ((m : ℝ) * theta)

/-- `triangular_derivative`, /repo/src/zernpy/calculations/calc_zernike_pol.py:429-453, at one angle. -/
noncomputable def triangularDerivative (m : Int) (theta : ℝ) : ℝ :=
  if m ≥ 0 then -(m : ℝ) * Real.sin ((m : ℝ) * theta) else -(m : ℝ) * Real.cos ((m : ℝ) * theta)

/-- Apply a `numpy` ufunc, /repo/src/zernpy/calculations/calc_zernike_pol.py:421-426. -/
def Num.map (f : ℝ → ℝ) : Num → Num
  | .scalar x => .scalar (f x)
  | .array shape data => .array shape (data.map f)

/-- An array as an element of the ring `Fin N → ℝ`, /repo/src/zernpy/calculations/calc_zernike_pol.py:107-205. -/
def asFun (data : List ℝ) : Fin data.length → ℝ := fun i => data.get i

section
variable {α : Type} [Zero α] [One α] [Add α] [Sub α] [Mul α] [NatCast α] [IntCast α] [Pow α ℕ] [OfRat α]

/-- Which function the methods `radial` and `polynomial_value` call for the radial part,
/repo/src/zernpy/zernikepol.py:409-428,474-493 (without the warnings). -/
def radialValue (fuel : Nat) (exact : Bool) (m n : Int) (r : α) : CM α :=
  if !exact then
    if n ≤ 12 then CM.lift (radialPolynomial fuel m n r) else radialPolynomialCoeffs fuel m n r
  else if n > maxRadialOrderCoeffs then pure 0
  else CM.lift (radialPolynomialEq m n r)

/-- Which function the method `radial_dr` calls, /repo/src/zernpy/zernikepol.py:566-585 (without the warnings). -/
def radialDrValue (fuel : Nat) (exact : Bool) (m n : Int) (r : α) : CM α :=
  if !exact then
    if n ≤ 12 then CM.lift (radialDerivative fuel m n r) else radialPolynomialCoeffsDr fuel m n r
  else if n > maxRadialOrderCoeffsDr then pure 0
  else CM.lift (radialDerivativeEq m n r)

end

/-- Evaluate on a `float` or on an array, /repo/src/zernpy/zernikepol.py:472-493. -/
noncomputable def evalNum (f : (α : Type) → [CommRing α] → [Algebra ℚ α] → α → CM α) : Num → CM Num
  | .scalar x => do
    let v ← f ℝ x
    pure (.scalar v)
  | .array shape data => do
    let v ← f (Fin data.length → ℝ) (asFun data)
    pure (.array shape (List.ofFn v))

/-- The slow-calculation warning: emitted once per object, above the order `limit`, only by the default path above the 12th order,
/repo/src/zernpy/zernikepol.py:412-417,477-482,569-574. Returns the new flag `__show_slow_calc_warn` and the warnings. -/
def slowWarn (limit n : Int) (exact flag : Bool) : Bool × List Warn :=
  if !exact then
    if n ≤ 12 then (flag, [])
    else if n > limit ∧ flag = false then (true, [.slow])
    else (flag, [])
  else (flag, [])

/-- The warning of the exact path above its order limit, /repo/src/zernpy/zernikepol.py:421-422,486-487,578-579. -/
def highWarn (limit n : Int) (exact : Bool) : List Warn := if exact ∧ n > limit then [.highOrder] else []

/-- A polynomial object: the orders and the flag `__show_slow_calc_warn`, /repo/src/zernpy/zernikepol.py:50. -/
structure PolObj where
  m : Int
  n : Int
  slowShown : Bool

/-- Outcome of a method call: result or exception, the object, the warnings, the process-wide state, /repo/src/zernpy/zernikepol.py:352-585. -/
structure Outcome (β : Type) where
  res : Res β
  obj : PolObj
  warns : List Warn
  st : CoefState

/-- `ZernPol.radial`, /repo/src/zernpy/zernikepol.py:430-493. -/
noncomputable def radial (fuel : Nat) (o : PolObj) (r : Arg) (exact : Bool) (s : CoefState) : Outcome Num :=
  match checkRadii r with
  | .error e => ⟨.error e, o, [], s⟩
  | .ok x =>
    let w := slowWarn 50 o.n exact o.slowShown
    let out := evalNum (fun α _ _ y => radialValue (α := α) fuel exact o.m o.n y) x s
    ⟨out.1, { o with slowShown := w.1 }, w.2 ++ highWarn maxRadialOrderCoeffs o.n exact, out.2⟩

/-- `ZernPol.radial_dr`, /repo/src/zernpy/zernikepol.py:524-585. -/
noncomputable def radialDr (fuel : Nat) (o : PolObj) (r : Arg) (exact : Bool) (s : CoefState) : Outcome Num :=
  match checkRadii r with
  | .error e => ⟨.error e, o, [], s⟩
  | .ok x =>
    let w := slowWarn 48 o.n exact o.slowShown
    let out := evalNum (fun α _ _ y => radialDrValue (α := α) fuel exact o.m o.n y) x s
    ⟨out.1, { o with slowShown := w.1 }, w.2 ++ highWarn maxRadialOrderCoeffsDr o.n exact, out.2⟩

/-- `ZernPol.triangular`, /repo/src/zernpy/zernikepol.py:495-522. -/
noncomputable def triangular (o : PolObj) (theta : Arg) : Res (Num × List Warn) := do
  let (t, w) ← checkAngles theta
  pure (t.map (triangularFunction o.m), w)

/-- `ZernPol.triangular_dtheta`, /repo/src/zernpy/zernikepol.py:587-613. -/
noncomputable def triangularDtheta (o : PolObj) (theta : Arg) : Res (Num × List Warn) := do
  let (t, w) ← checkAngles theta
  pure (t.map (triangularDerivative o.m), w)

/-- `ZernPol.normf`, /repo/src/zernpy/zernikepol.py:615-631. -/
noncomputable def normf (o : PolObj) : ℝ := normalizationFactor o.m o.n

/-- `nTr * radial`, elementwise with scalars broadcast (two arrays have passed the shape check), /repo/src/zernpy/zernikepol.py:416-428. -/
def Num.mul : Num → Num → Num
  | .scalar x, .scalar y => .scalar (x * y)
  | .scalar x, .array sh d => .array sh (d.map (x * ·))
  | .array sh d, .scalar y => .array sh (d.map (· * y))
  | .array sh d, .array _ d' => .array sh (List.zipWith (· * ·) d d')

/-- Zeros of the type and shape of `r`, /repo/src/zernpy/zernikepol.py:423-426. -/
def Num.zerosLike : Num → Num
  | .scalar _ => .scalar 0
  | .array sh d => .array sh (d.map fun _ => 0)

/-- The shape check on two arrays, /repo/src/zernpy/zernikepol.py:403-406. -/
def shapesDiffer : Num → Num → Bool
  | .array sh _, .array sh' _ => sh != sh'
  | _, _ => false

/-- `ZernPol.polynomial_value`, /repo/src/zernpy/zernikepol.py:352-428. -/
noncomputable def polynomialValue (fuel : Nat) (o : PolObj) (r theta : Arg) (exact : Bool) (s : CoefState) :
    Outcome Num :=
  match checkRadii r with
  | .error e => ⟨.error e, o, [], s⟩
  | .ok x => match checkAngles theta with
    | .error e => ⟨.error e, o, [], s⟩
    | .ok (t, wa) =>
      if shapesDiffer x t then ⟨.error .valueError, o, wa, s⟩
      else
        let nTr := t.map (fun a => normalizationFactor o.m o.n * triangularFunction o.m a)
        let w := slowWarn 50 o.n exact o.slowShown
        let wh := highWarn maxRadialOrderCoeffs o.n exact
        if exact ∧ o.n > maxRadialOrderCoeffs then ⟨.ok x.zerosLike, o, wa ++ wh, s⟩
        else
          let out := evalNum (fun α _ _ y => radialValue (α := α) fuel exact o.m o.n y) x s
          ⟨out.1.map (fun v => nTr.mul v), { o with slowShown := w.1 }, wa ++ w.2 ++ wh, out.2⟩

end Verif.Model
