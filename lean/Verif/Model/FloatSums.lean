import Verif.Model.FloatPsf

/-!
# Model of the sums of polynomials in floating-point arithmetic

Radii and angles are `float`s in the accepted range, the polynomials are `ZernPol` instances. Arrays are evaluated element by element.
-/

namespace Verif.Model

open Classical in
/-- The loop for the polynomials after the first one, /repo/src/zernpy/zernikepol.py:962-969, in the arithmetic `F`. -/
noncomputable def fltSumRest (F : PsfArith) (fuel : Nat) (r theta : ℝ) : List (ℝ × PolObj) → ℝ → CM ℝ
  | [], S => pure S
  | (c, o) :: rest, S =>
    if |c| > 0 then do
      let v ← fltSinglePhase F fuel o c r theta
      fltSumRest F fuel r theta rest (F.fl (S + v))
    else fltSumRest F fuel r theta rest S

/-- `sum_zernikes` at a point, /repo/src/zernpy/zernikepol.py:955-969, in the arithmetic `F`. -/
noncomputable def fltSumPoint (F : PsfArith) (fuel : Nat) (r theta : ℝ) : List (ℝ × PolObj) → CM ℝ
  | [] => CM.raise .valueError
  | (c, o) :: rest => do
    let v ← fltSinglePhase F fuel o c r theta
    fltSumRest F fuel r theta rest v

/-- `coefficient*polynomial_value(r, theta)` for the points of a list, /repo/src/zernpy/zernikepol.py:915,984,987. -/
noncomputable def fltValues (F : PsfArith) (fuel : Nat) (c : ℝ) (o : PolObj) : List (ℝ × ℝ) → CM (List ℝ)
  | [] => pure []
  | (r, t) :: rest => do
    let v ← fltSinglePhase F fuel o c r t
    let vs ← fltValues F fuel c o rest
    pure (v :: vs)

/-- `for j in range(r_size): S[j, :] += coefficient*polynomials[i].polynomial_value(r[j], theta)[:]`, /repo/src/zernpy/zernikepol.py:983-984.
The first number counts the remaining iterations. -/
noncomputable def fltAddRows (F : PsfArith) (fuel : Nat) (c : ℝ) (o : PolObj) (r theta : List ℝ) : Nat → Nat → Grid → CM Grid
  | 0, _, S => pure S
  | k + 1, j, S => do
    let v ← fltValues F fuel c o (theta.map fun t => (r.getD j 0, t))
    fltAddRows F fuel c o r theta k (j + 1) { S with entry := fun a b => if a = j then F.fl (S.entry a b + v.getD b 0) else S.entry a b }

/-- `for j in range(theta_size): S[:, j] += coefficient*polynomials[i].polynomial_value(r, theta[j])[:]`, /repo/src/zernpy/zernikepol.py:986-987. -/
noncomputable def fltAddCols (F : PsfArith) (fuel : Nat) (c : ℝ) (o : PolObj) (r theta : List ℝ) : Nat → Nat → Grid → CM Grid
  | 0, _, S => pure S
  | k + 1, j, S => do
    let v ← fltValues F fuel c o (r.map fun x => (x, theta.getD j 0))
    fltAddCols F fuel c o r theta k (j + 1) { S with entry := fun a b => if b = j then F.fl (S.entry a b + v.getD a 0) else S.entry a b }

open Classical in
/-- The loop over the polynomials for a surface, /repo/src/zernpy/zernikepol.py:978-987, in the arithmetic `F`. -/
noncomputable def fltSurfaceLoop (F : PsfArith) (fuel : Nat) (r theta : List ℝ) : List (ℝ × PolObj) → Grid → CM Grid
  | [], S => pure S
  | (c, o) :: rest, S =>
    if |c| > 0 then
      if theta.length > r.length then do
        let S' ← fltAddRows F fuel c o r theta r.length 0 S
        fltSurfaceLoop F fuel r theta rest S'
      else do
        let S' ← fltAddCols F fuel c o r theta theta.length 0 S
        fltSurfaceLoop F fuel r theta rest S'
    else fltSurfaceLoop F fuel r theta rest S

/-- `sum_zernikes(..., get_surface=True)` on two vectors, /repo/src/zernpy/zernikepol.py:970-988, in the arithmetic `F`. -/
noncomputable def fltSumSurface (F : PsfArith) (fuel : Nat) (r theta : List ℝ) (l : List (ℝ × PolObj)) : CM Grid :=
  if l.length = 0 then CM.raise .valueError
  else fltSurfaceLoop F fuel r theta l (Grid.zeros r.length theta.length)

open Classical in
/-- The loop of `_sum_zernikes_meshgrid`, /repo/src/zernpy/zernikepol.py:912-915, in the arithmetic `F`. The values on the mesh are computed row by row. -/
noncomputable def fltMeshLoop (F : PsfArith) (fuel : Nat) (r theta : List ℝ) : List (ℝ × PolObj) → Grid → CM Grid
  | [], S => pure S
  | (c, o) :: rest, S =>
    if |c| > 0 then do
      let S' ← fltAddRows F fuel c o r theta r.length 0 S
      fltMeshLoop F fuel r theta rest S'
    else fltMeshLoop F fuel r theta rest S

/-- `_sum_zernikes_meshgrid` on two vectors, /repo/src/zernpy/zernikepol.py:901-917, in the arithmetic `F`. -/
noncomputable def fltSumMesh (F : PsfArith) (fuel : Nat) (r theta : List ℝ) (l : List (ℝ × PolObj)) : CM Grid :=
  fltMeshLoop F fuel r theta l (Grid.zeros r.length theta.length)

end Verif.Model
