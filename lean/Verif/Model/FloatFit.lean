import Verif.Model.FloatSums
import Verif.Model.Fit

/-!
# Model of the fitting of polynomials in floating-point arithmetic

Radii and angles are `float`s in the accepted range, the polynomials are `ZernPol` instances. Arrays are evaluated element by element. `numpy.linalg.lstsq` is a parameter.
-/

namespace Verif.Model

/-- `polynomials[j].polynomial_value` on arrays: the values at the points of a list, /repo/src/zernpy/calculations/fit_zernike_pols.py:203,207, in the arithmetic `F`. -/
noncomputable def fltPolValues (F : PsfArith) (fuel : Nat) (o : PolObj) : List (ℝ × ℝ) → CM (List ℝ)
  | [] => pure []
  | (r, t) :: rest => do
    let v ← polynomialFl F.toFloatArith fuel false o.m o.n ⟨r⟩ ⟨t⟩
    let vs ← fltPolValues F fuel o rest
    pure (v.val :: vs)

/-- The inner loop over the radii, /repo/src/zernpy/calculations/fit_zernike_pols.py:206-208, in the arithmetic `F`. -/
noncomputable def fltFitMeshColumn (F : PsfArith) (fuel : Nat) (o : PolObj) (radii thetas : List ℝ) (j : Nat) : Nat → Nat → Grid → CM Grid
  | 0, _, A => pure A
  | k + 1, i, A => do
    let v ← fltPolValues F fuel o (thetas.map fun t => (radii.getD i 0, t))
    let A' ← CM.lift (assignSlice A (i * thetas.length) ((i + 1) * thetas.length) j (.array [v.length] v) v.length)
    fltFitMeshColumn F fuel o radii thetas j k (i + 1) A'

/-- The loop over the polynomials that fills the matrix, /repo/src/zernpy/calculations/fit_zernike_pols.py:201-208, in the arithmetic `F`. -/
noncomputable def fltFitMatrix (F : PsfArith) (fuel : Nat) (radii thetas : List ℝ) : List PolObj → Nat → Grid → CM Grid
  | [], _, A => pure A
  | o :: rest, j, A =>
    if radii.length = thetas.length then do
      let v ← fltPolValues F fuel o (radii.zip thetas)
      let A' ← CM.lift (assignSlice A 0 A.rows j (.array [v.length] v) v.length)
      fltFitMatrix F fuel radii thetas rest (j + 1) A'
    else do
      let A' ← fltFitMeshColumn F fuel o radii thetas j radii.length 0 A
      fltFitMatrix F fuel radii thetas rest (j + 1) A'

/-- `fit_zernikes`, /repo/src/zernpy/calculations/fit_zernike_pols.py:154-214, in the arithmetic `F`. -/
noncomputable def fltFitZernikes (F : PsfArith) (fuel : Nat) (lstsq : Lstsq) (phases radii thetas : List ℝ) (os : List PolObj) : CM (List ℝ) :=
  if os.length = 0 then CM.raise .valueError
  else if (os.map fun o => (o.m, o.n)).Nodup then do
    let A ← fltFitMatrix F fuel radii thetas os 0 (Grid.zeros phases.length os.length)
    pure (lstsq A phases)
  else CM.raise .valueError

/-- `numpy.round(x, decimals)`: multiplied by (divided by, for negative `decimals`) a power of 10, rounded to an integer, and divided (multiplied) again,
/repo/src/zernpy/zernikepol.py:1547,/repo/src/zernpy/zernikepol.py:1592, in the arithmetic `F`. The powers of 10 are exact (`|decimals| ≤ 22` in double precision). -/
noncomputable def fltRound (F : PsfArith) (decimals : Int) (x : ℝ) : ℝ :=
  if decimals ≥ 0 then F.fl ((rint (F.fl (x * 10 ^ decimals)) : ℝ) / 10 ^ decimals)
  else F.fl ((rint (F.fl (x / 10 ^ (-decimals))) : ℝ) * 10 ^ (-decimals))

/-- `fit_polynomials_vectors` on 1-dimensional arrays, /repo/src/zernpy/zernikepol.py:1554-1592, in the arithmetic `F`. -/
noncomputable def fltFitVectors (F : PsfArith) (fuel : Nat) (lstsq : Lstsq) (os : List PolObj) (phases radii thetas : List ℝ) (digits : Int) : CM (List ℝ) := do
  let x ← fltFitZernikes F fuel lstsq phases radii thetas os
  pure (x.map (fltRound F digits))

end Verif.Model
