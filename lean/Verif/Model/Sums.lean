import Verif.Model.History

/-!
# Model of the sums of polynomials and of the generators of polar coordinates
-/

namespace Verif.Model

/-- An element of the list `polynomials`: a `ZernPol` instance or anything else, /repo/src/zernpy/zernikepol.py:962-965,/repo/src/zernpy/zernikepol.py:978-981. -/
inductive PolItem where
  | pol (o : PolObj)
  | other

/-- A 2D `numpy` array (image, surface, kernel): `entry i j` is the element in row `i`, column `j`; elements outside of the shape are not part
of the array, /repo/src/zernpy/zernikepol.py:977,/repo/src/zernpy/zernikepol.py:911,/repo/src/zernpy/calculations/calc_psfs.py:401. -/
structure Grid where
  rows : Nat
  cols : Nat
  entry : Nat → Nat → ℝ

/-- `numpy.zeros(shape=(rows, cols))`, /repo/src/zernpy/zernikepol.py:911,/repo/src/zernpy/zernikepol.py:977. -/
def Grid.zeros (rows cols : Nat) : Grid := ⟨rows, cols, fun _ _ => 0⟩

/-- `c * S`, /repo/src/zernpy/zernikepol.py:966-969. -/
def Num.smul (c : ℝ) (x : Num) : Num := x.map (c * ·)

/-- `x + y`, elementwise with scalars broadcast, /repo/src/zernpy/zernikepol.py:966-969. -/
def Num.add : Num → Num → Num
  | .scalar x, .scalar y => .scalar (x + y)
  | .scalar x, .array sh d => .array sh (d.map (x + ·))
  | .array sh d, .scalar y => .array sh (d.map (· + y))
  | .array sh d, .array _ d' => .array sh (List.zipWith (· + ·) d d')

/-- `v[k]` of a 1D array, /repo/src/zernpy/zernikepol.py:984,/repo/src/zernpy/zernikepol.py:987. -/
def Num.item (v : Num) (k : Nat) : ℝ :=
  match v with
  | .scalar x => x
  | .array _ d => d.getD k 0

/-- `polynomials[i].polynomial_value(r, theta)` as a computation on the coefficient tables. The warnings and the warning flag of the object
do not influence the value and are left out, /repo/src/zernpy/zernikepol.py:352-428. -/
noncomputable def polVal (fuel : Nat) (o : PolObj) (r theta : Arg) : CM Num := fun s =>
  let out := polynomialValue fuel o r theta false s
  (out.res, out.st)

open Classical in
/-- The loop for the polynomials after the first one, /repo/src/zernpy/zernikepol.py:962-969. -/
noncomputable def sumRest (fuel : Nat) (r theta : Arg) : List (ℝ × PolItem) → Num → CM Num
  | [], S => pure S
  | (_, .other) :: _, _ => CM.raise .valueError
  | (c, .pol o) :: rest, S =>
    if |c| > 0 then do
      let v ← polVal fuel o r theta
      sumRest fuel r theta rest (S.add (v.smul c))
    else sumRest fuel r theta rest S

/-- The loop over the polynomials at points, /repo/src/zernpy/zernikepol.py:962-969. -/
noncomputable def sumPoints (fuel : Nat) (r theta : Arg) : List (ℝ × PolItem) → CM Num
  | [] => pure (.scalar 0)
  | (_, .other) :: _ => CM.raise .valueError
  | (c, .pol o) :: rest => do
    let v ← polVal fuel o r theta
    sumRest fuel r theta rest (v.smul c)

/-- `for j in range(r_size): S[j, :] += coefficient*polynomials[i].polynomial_value(r[j], theta)[:]`,
/repo/src/zernpy/zernikepol.py:983-984. The first number counts the remaining iterations. -/
noncomputable def addRows (fuel : Nat) (c : ℝ) (o : PolObj) (r theta : List ℝ) : Nat → Nat → Grid → CM Grid
  | 0, _, S => pure S
  | k + 1, j, S => do
    let v ← polVal fuel o (.num (r.getD j 0)) (.arr [theta.length] theta)
    addRows fuel c o r theta k (j + 1)
      { S with entry := fun a b => if a = j then S.entry a b + (v.smul c).item b else S.entry a b }

/-- `for j in range(theta_size): S[:, j] += coefficient*polynomials[i].polynomial_value(r, theta[j])[:]`,
/repo/src/zernpy/zernikepol.py:986-987. -/
noncomputable def addCols (fuel : Nat) (c : ℝ) (o : PolObj) (r theta : List ℝ) : Nat → Nat → Grid → CM Grid
  | 0, _, S => pure S
  | k + 1, j, S => do
    let v ← polVal fuel o (.arr [r.length] r) (.num (theta.getD j 0))
    addCols fuel c o r theta k (j + 1)
      { S with entry := fun a b => if b = j then S.entry a b + (v.smul c).item a else S.entry a b }

open Classical in
/-- The loop over the polynomials for a surface, /repo/src/zernpy/zernikepol.py:978-987. -/
noncomputable def sumSurface (fuel : Nat) (r theta : List ℝ) : List (ℝ × PolItem) → Grid → CM Grid
  | [], S => pure S
  | (_, .other) :: _, _ => CM.raise .valueError
  | (c, .pol o) :: rest, S =>
    if |c| > 0 then
      if theta.length > r.length then do
        let S' ← addRows fuel c o r theta r.length 0 S
        sumSurface fuel r theta rest S'
      else do
        let S' ← addCols fuel c o r theta theta.length 0 S
        sumSurface fuel r theta rest S'
    else sumSurface fuel r theta rest S

/-- What `sum_zernikes` returns: values at points or a surface, /repo/src/zernpy/zernikepol.py:955-988. -/
inductive SumOut where
  | points (v : Num)
  | surface (g : Grid)

/-- `ZernPol.sum_zernikes`, /repo/src/zernpy/zernikepol.py:920-988. A surface on arrays that are not 1-dimensional is left out here
(`otherError`); see Verif.Model.SumsShapes. -/
noncomputable def sumZernikes (fuel : Nat) (cs : List ℝ) (ps : List PolItem) (r theta : Arg) (getSurface : Bool) : CM SumOut :=
  if cs.length ≠ ps.length then CM.raise .valueError
  else if cs.length = 0 then CM.raise .valueError
  else if getSurface then
    match r, theta with
    | .arr [_] rd, .arr [_] td => do
      let g ← sumSurface fuel rd td (cs.zip ps) (Grid.zeros rd.length td.length)
      pure (.surface g)
    | .arr _ _, .arr _ _ => CM.raise .otherError
    | _, _ => do
      let v ← sumPoints fuel r theta (cs.zip ps)
      pure (.points v)
  else do
    let v ← sumPoints fuel r theta (cs.zip ps)
    pure (.points v)

/-- `numpy.meshgrid(theta, r)`: the flattened grids `theta_grid`, `r_grid` of shape `(len(r), len(theta))`, /repo/src/zernpy/zernikepol.py:911. -/
def meshTheta (r theta : List ℝ) : List ℝ := r.flatMap fun _ => theta

/-- See `meshTheta`, /repo/src/zernpy/zernikepol.py:911. -/
def meshR (r theta : List ℝ) : List ℝ := r.flatMap fun x => theta.map fun _ => x

open Classical in
/-- The loop of `_sum_zernikes_meshgrid`, /repo/src/zernpy/zernikepol.py:912-916. -/
noncomputable def sumMesh (fuel : Nat) (r theta : List ℝ) : List (ℝ × PolItem) → Grid → CM Grid
  | [], S => pure S
  | (_, .other) :: _, _ => CM.raise .valueError
  | (c, .pol o) :: rest, S =>
    if |c| > 0 then do
      let v ← polVal fuel o (.arr [r.length, theta.length] (meshR r theta)) (.arr [r.length, theta.length] (meshTheta r theta))
      sumMesh fuel r theta rest { S with entry := fun a b => S.entry a b + (v.smul c).item (a * theta.length + b) }
    else sumMesh fuel r theta rest S

/-- `ZernPol._sum_zernikes_meshgrid`, /repo/src/zernpy/zernikepol.py:871-917, on 1-dimensional arrays. Anything that is not an array gives the
number 0 with a warning (left out). -/
noncomputable def sumZernikesMeshgrid (fuel : Nat) (cs : List ℝ) (ps : List PolItem) (r theta : Arg) : CM SumOut :=
  if cs.length ≠ ps.length then CM.raise .valueError
  else match r, theta with
    | .arr [_] rd, .arr [_] td => do
      let g ← sumMesh fuel rd td (cs.zip ps) (Grid.zeros rd.length td.length)
      pure (.surface g)
    | .arr _ _, .arr _ _ => CM.raise .otherError
    | _, _ => pure (.points (.scalar 0))

/-- `numpy.arange(0.0, stop, step)`: `ceil(stop / step)` elements (none if it is negative), `ZeroDivisionError` for step 0, /repo/src/zernpy/zernikepol.py:1021. -/
noncomputable def npArange (stop step : ℝ) : Res (List ℝ) :=
  open Classical in
  if step = 0 then .error .zeroDivisionError
  else .ok ((List.range ⌈stop / step⌉.toNat).map fun (i : Nat) => (i : ℝ) * step)

open Classical in
/-- `if x[x.shape[0]-1] > limit: x[x.shape[0]-1] = limit`, /repo/src/zernpy/zernikepol.py:1023-1026. An empty array has no element `-1`:
`IndexError`. -/
noncomputable def clipLast (limit : ℝ) (x : List ℝ) : Res (List ℝ) :=
  match x.getLast? with
  | none => .error .indexError
  | some v => .ok (if v > limit then x.set (x.length - 1) limit else x)

open Classical in
/-- `ZernPol.gen_polar_coordinates`, /repo/src/zernpy/zernikepol.py:991-1027, on numbers. `0.0 >= r_step > 0.5` is Python's chained
comparison: `0.0 >= r_step and r_step > 0.5`. -/
noncomputable def genPolarCoordinates (rStep thetaStep : ℝ) : Res (List ℝ × List ℝ) := do
  if 0 ≥ rStep ∧ rStep > 0.5 then throw .valueError
  if 0 ≥ thetaStep ∧ thetaStep > Real.pi then throw .valueError
  let rs ← npArange (1 + rStep) rStep
  let ts ← npArange (2 * Real.pi + thetaStep) thetaStep
  let rs ← clipLast 1 rs
  let ts ← clipLast (2 * Real.pi) ts
  pure (rs, ts)

/-- `numpy.linspace(0.0, stop, num)` for `num ≥ 2`, /repo/src/zernpy/zernikepol.py:1051. -/
noncomputable def npLinspace0 (stop : ℝ) (num : Nat) : List ℝ :=
  (List.range num).map fun (i : Nat) => (i : ℝ) * (stop / ((num : ℝ) - 1))

/-- `ZernPol.gen_equal_polar_mesh`, /repo/src/zernpy/zernikepol.py:1030-1052. -/
noncomputable def genEqualPolarMesh (nPoints : Int) : List ℝ × List ℝ :=
  let n := (if nPoints < 4 then 4 else nPoints).toNat
  (npLinspace0 1 n, npLinspace0 (2 * Real.pi) n)

/-- `ZernPol.gen_zernikes_surface`, /repo/src/zernpy/zernikepol.py:1115-1152: the surface, the radii, the angles. -/
noncomputable def genZernikesSurface (fuel : Nat) (cs : List ℝ) (ps : List PolItem) (rStep thetaStep : ℝ) (equalN : Bool)
    (nPoints : Int) : CM (SumOut × List ℝ × List ℝ) := do
  let v ← CM.lift (if equalN then .ok (genEqualPolarMesh nPoints) else genPolarCoordinates rStep thetaStep)
  let s ← sumZernikes fuel cs ps (.arr [v.1.length] v.1) (.arr [v.2.length] v.2) true
  pure (s, v.1, v.2)

end Verif.Model
