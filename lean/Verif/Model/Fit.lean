import Verif.Model.Crop

/-!
# Model of the fitting of polynomials

`numpy.linalg.lstsq` is a parameter of the model: any function.
-/

namespace Verif.Model

/-- `numpy.linalg.lstsq(A, b)[0]`. `LinAlgError` (no convergence of the SVD) is not modelled, /repo/src/zernpy/calculations/fit_zernike_pols.py:210. -/
abbrev Lstsq := Grid → List ℝ → List ℝ

/-- Assignment of a vector of length `len` to a slice of length `slot`: `numpy` broadcasts length 1, otherwise the lengths must agree, /repo/src/zernpy/calculations/fit_zernike_pols.py:186-207. -/
def fitsSlice (len slot : Nat) : Bool := len == slot || len == 1

/-- `zernike_values[lo:hi, j] = v`, with the slice cut at the number of rows, /repo/src/zernpy/calculations/fit_zernike_pols.py:186-207. -/
def assignSlice (A : Grid) (lo hi j : Nat) (v : Num) (len : Nat) : Res Grid :=
  if fitsSlice len (min hi A.rows - min lo A.rows) then
    .ok { A with entry := fun a b => if b = j ∧ lo ≤ a ∧ a < hi then v.item (if len = 1 then 0 else a - lo) else A.entry a b }
  else .error .valueError

/-- The inner loop over the radii, /repo/src/zernpy/calculations/fit_zernike_pols.py:206-208. -/
noncomputable def fitMeshColumn (fuel : Nat) (o : PolObj) (radii thetas : List ℝ) (j : Nat) : Nat → Nat → Grid → CM Grid
  | 0, _, A => pure A
  | k + 1, i, A => do
    let v ← polVal fuel o (.num (radii.getD i 0)) (.arr [thetas.length] thetas)
    let A' ← CM.lift (assignSlice A (i * thetas.length) ((i + 1) * thetas.length) j v thetas.length)
    fitMeshColumn fuel o radii thetas j k (i + 1) A'

/-- The loop over the polynomials that fills the matrix, /repo/src/zernpy/calculations/fit_zernike_pols.py:201-208. -/
noncomputable def fitMatrix (fuel : Nat) (radii thetas : List ℝ) : List PolObj → Nat → Grid → CM Grid
  | [], _, A => pure A
  | o :: rest, j, A =>
    if radii.length = thetas.length then do
      let v ← polVal fuel o (.arr [radii.length] radii) (.arr [thetas.length] thetas)
      let A' ← CM.lift (assignSlice A 0 A.rows j v radii.length)
      fitMatrix fuel radii thetas rest (j + 1) A'
    else do
      let A' ← fitMeshColumn fuel o radii thetas j radii.length 0 A
      fitMatrix fuel radii thetas rest (j + 1) A'

/-- Polynomials of the list `ps`, `AttributeError` for the first element that has no method `get_mn_orders`,
/repo/src/zernpy/calculations/fit_zernike_pols.py:190-191. -/
def takePols : List PolItem → Res (List PolObj)
  | [] => .ok []
  | .other :: _ => .error .attributeError
  | .pol o :: rest => (takePols rest).map (o :: ·)

/-- `fit_zernikes`, /repo/src/zernpy/calculations/fit_zernike_pols.py:154-214. -/
noncomputable def fitZernikes (fuel : Nat) (lstsq : Lstsq) (phases radii thetas : List ℝ) (ps : List PolItem) : CM (List ℝ) :=
  if ps.length = 0 then CM.raise .valueError
  else do
    let os ← CM.lift (takePols ps)
    if (os.map fun o => (o.m, o.n)).Nodup then do
      let A ← fitMatrix fuel radii thetas os 0 (Grid.zeros phases.length ps.length)
      pure (lstsq A phases)
    else CM.raise .valueError

/-- `fit_polynomials`, /repo/src/zernpy/zernikepol.py:1502-1551: the coefficients and the cropped image (if requested). -/
noncomputable def fitPolynomials (fuel : Nat) (lstsq : Lstsq) (image : ImgArg) (ps : List PolItem) (cropRadius : ℝ) (strict : Bool)
    (digits : Int) (returnCropped : Bool) : CM (List ℝ × Option Grid) := do
  let c ← CM.lift (cropPhasesImg image cropRadius strict)
  let x ← fitZernikes fuel lstsq c.phases c.radii c.thetas ps
  let cropped := match image with
    | .img g => some { g with entry := fun i j => c.mask.entry i j * g.entry i j }
    | _ => none
  pure (x.map (npRound digits), if returnCropped then cropped else none)

/-- `fit_polynomials_vectors`, /repo/src/zernpy/zernikepol.py:1554-1592, on arrays of the given numbers of dimensions; more than one
dimension is a `TypeError`. -/
noncomputable def fitPolynomialsVectors (fuel : Nat) (lstsq : Lstsq) (ps : List PolItem) (phases radii thetas : List ℝ)
    (dims : Nat × Nat × Nat) (digits : Int) : CM (List ℝ) :=
  if dims.1 > 1 ∨ dims.2.1 > 1 ∨ dims.2.2 > 1 then CM.raise .typeError
  else do
    let x ← fitZernikes fuel lstsq phases radii thetas ps
    pure (x.map (npRound digits))

end Verif.Model
