import Verif.Model.Sums

/-!
# Model of `sum_zernikes` with `get_surface=True` on arrays of any shape

Verif.Model.Sums has the case of two 1-dimensional arrays. An array is its shape and its elements in row-major order.
-/

namespace Verif.Model

/-- `numpy.size(x, 0)` and the shape of the elements `x[j]`; an array without dimensions has no axis 0: `IndexError`,
/repo/src/zernpy/zernikepol.py:976. -/
def leadingAxis : List Nat → Res (Nat × List Nat)
  | [] => .error .indexError
  | a :: rest => .ok (a, rest)

/-- `x[j]`: a number, if `x` has one dimension, else the `j`-th sub-array (of shape `rest`), /repo/src/zernpy/zernikepol.py:984,
/repo/src/zernpy/zernikepol.py:987. -/
def elementAt (rest : List Nat) (data : List ℝ) (j : Nat) : Arg :=
  match rest with
  | [] => .num (data.getD j 0)
  | b :: bs => .arr (b :: bs) ((data.drop (j * (b :: bs).prod)).take (b :: bs).prod)

/-- `line += v[:]` for a line of `len` elements of the surface, /repo/src/zernpy/zernikepol.py:984,/repo/src/zernpy/zernikepol.py:987: the numbers that are
added. An array of one dimension must have the length of the line, or one element; more dimensions do not fit (`ValueError`); a number (an
array without dimensions) has no `[:]` (`IndexError`). -/
def lineItems (len : Nat) : Num → Res (Nat → ℝ)
  | .scalar _ => .error .indexError
  | .array [] _ => .error .indexError
  | .array [k] d => if k = len then .ok fun b => d.getD b 0 else if k = 1 then .ok fun _ => d.getD 0 0 else .error .valueError
  | .array (_ :: _ :: _) _ => .error .valueError

/-- `for j in range(r_size): S[j, :] += coefficient*polynomials[i].polynomial_value(r[j], theta)[:]`, /repo/src/zernpy/zernikepol.py:983-984;
`rest` is the shape of `r[j]`, `len` the number of columns. -/
noncomputable def addRowsNd (fuel : Nat) (c : ℝ) (o : PolObj) (rest : List Nat) (rd : List ℝ) (theta : Arg) (len : Nat) : Nat → Nat → Grid → CM Grid
  | 0, _, S => pure S
  | k + 1, j, S => do
    let v ← polVal fuel o (elementAt rest rd j) theta
    let f ← CM.lift (lineItems len (v.smul c))
    addRowsNd fuel c o rest rd theta len k (j + 1)
      { S with entry := fun a b => if a = j then S.entry a b + f b else S.entry a b }

/-- `for j in range(theta_size): S[:, j] += coefficient*polynomials[i].polynomial_value(r, theta[j])[:]`,
/repo/src/zernpy/zernikepol.py:986-987; `rest` is the shape of `theta[j]`, `len` the number of rows. -/
noncomputable def addColsNd (fuel : Nat) (c : ℝ) (o : PolObj) (r : Arg) (rest : List Nat) (td : List ℝ) (len : Nat) : Nat → Nat → Grid → CM Grid
  | 0, _, S => pure S
  | k + 1, j, S => do
    let v ← polVal fuel o r (elementAt rest td j)
    let f ← CM.lift (lineItems len (v.smul c))
    addColsNd fuel c o r rest td len k (j + 1)
      { S with entry := fun a b => if b = j then S.entry a b + f a else S.entry a b }

open Classical in
/-- The loop over the polynomials for a surface, /repo/src/zernpy/zernikepol.py:978-987, for `r` of shape `a :: rs` and `theta` of shape
`b :: ts`. -/
noncomputable def sumSurfaceNd (fuel : Nat) (a : Nat) (rs : List Nat) (rd : List ℝ) (b : Nat) (ts : List Nat) (td : List ℝ) :
    List (ℝ × PolItem) → Grid → CM Grid
  | [], S => pure S
  | (_, .other) :: _, _ => CM.raise .valueError
  | (c, .pol o) :: rest, S =>
    if |c| > 0 then
      if b > a then do
        let S' ← addRowsNd fuel c o rs rd (.arr (b :: ts) td) b a 0 S
        sumSurfaceNd fuel a rs rd b ts td rest S'
      else do
        let S' ← addColsNd fuel c o (.arr (a :: rs) rd) ts td a b 0 S
        sumSurfaceNd fuel a rs rd b ts td rest S'
    else sumSurfaceNd fuel a rs rd b ts td rest S

/-- `ZernPol.sum_zernikes` with `get_surface=True` and two arrays of any shapes, /repo/src/zernpy/zernikepol.py:920-988. -/
noncomputable def sumZernikesNd (fuel : Nat) (cs : List ℝ) (ps : List PolItem) (rshape : List Nat) (rd : List ℝ) (tshape : List Nat)
    (td : List ℝ) : CM Grid :=
  if cs.length ≠ ps.length then CM.raise .valueError
  else if cs.length = 0 then CM.raise .valueError
  else do
    let x ← CM.lift (leadingAxis rshape)
    let y ← CM.lift (leadingAxis tshape)
    sumSurfaceNd fuel x.1 x.2 rd y.1 y.2 td (cs.zip ps) (Grid.zeros x.1 y.1)

end Verif.Model
