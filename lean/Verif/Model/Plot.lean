import Verif.Model.Sums
import Verif.Model.ZernPol
import Verif.Model.Convolve

/-!
# Model of the plots, `ZernPol.plot_profile` and `ZernPol.plot_sum_zernikes_on_fig`

What is passed to `matplotlib` (the data that appears in the picture) is the result; colours, sizes and windows are left out.
-/

namespace Verif.Model

/-- A picture: `pcolormesh(theta, r, values)` on polar axes with a title (`""`: none), or `plot_surface(X, Y, values)`, /repo/src/zernpy/plotting/plot_zerns.py:42-165. -/
inductive Drawing where
  | polar (angles radii : List ℝ) (values : Grid) (title : String)
  | space (x y values : Grid)

/-- `plot_sum_fig` and `subplot_sum_on_fig` (without a title), /repo/src/zernpy/plotting/plot_zerns.py:42-51,113-124. -/
def plotSumFig (g : Grid) (r theta : List ℝ) (title : String) : Drawing := .polar theta r g title

/-- `plot_sum_fig_3d` and `subplot_sum_on_fig_3d`, /repo/src/zernpy/plotting/plot_zerns.py:75-82,155-165: `numpy.meshgrid(theta, r)` has one row for each radius and one column for
each angle. -/
noncomputable def plotSumFig3d (g : Grid) (r theta : List ℝ) : Drawing :=
  .space ⟨r.length, theta.length, fun i j => r.getD i 0 * Real.cos (theta.getD j 0)⟩
    ⟨r.length, theta.length, fun i j => r.getD i 0 * Real.sin (theta.getD j 0)⟩ g

/-- The default step of the angles, `round(np.pi/240, 7)`, /repo/src/zernpy/zernikepol.py:991. -/
noncomputable def defaultThetaStep : ℝ := 130900 / 10 ^ 7

/-- The coordinates for default plots, /repo/src/zernpy/zernikepol.py:1094-1097 and 1204-1207. -/
noncomputable def plotCoordinates (space : Bool) : Res (List ℝ × List ℝ) :=
  if space then .ok (genEqualPolarMesh 250) else genPolarCoordinates (1 / 100) defaultThetaStep

/-- The argument `polar_coordinates`: anything whose length is not 2, a tuple of length 2 without the names `R`, `Theta`, or 1D arrays, /repo/src/zernpy/zernikepol.py:1091-1101. -/
inductive CoordArg where
  | wrongLength
  | plainTuple
  | vectors (r theta : List ℝ)

/-- The surface in a picture: `sum_zernikes` on arrays gives a 2D array, /repo/src/zernpy/zernikepol.py:1104-1112,/repo/src/zernpy/zernikepol.py:1210-1224. -/
noncomputable def drawSum (r theta : List ℝ) (space : Bool) (title : String) : SumOut → CM Drawing
  | .surface g => pure (if space then plotSumFig3d g r theta else plotSumFig g r theta title)
  | .points _ => CM.raise .typeError

/-- `polynomial.get_polynomial_name()`, /repo/src/zernpy/zernikepol.py:253-281. -/
def polName (o : PolObj) : String := (polynomialNames.lookup (o.m, o.n)).getD ""

/-- `ZernPol.plot_profile`, /repo/src/zernpy/zernikepol.py:1090-1112; `space`: the projection is "3d" or "3D". Nothing is drawn for an object that is not a `ZernPol`. -/
noncomputable def plotProfile (fuel : Nat) (item : PolItem) (showTitle useDefaults space : Bool) (coords : CoordArg) : CM (Option Drawing) :=
  match item with
  | .other => pure none
  | .pol o => do
    let v ← CM.lift (if useDefaults then plotCoordinates space
      else match coords with
        | .wrongLength => .error .valueError
        | .plainTuple => .error .attributeError
        | .vectors r theta => .ok (r, theta))
    let s ← sumZernikes fuel [1] [.pol o] (.arr [v.1.length] v.1) (.arr [v.2.length] v.2) true
    let d ← drawSum v.1 v.2 space (if showTitle then polName o else "") s
    pure (some d)

/-- The argument `zernikes_sum_surface`, /repo/src/zernpy/zernikepol.py:1202-1224. -/
inductive SurfaceArg where
  | wrongLength
  | plainTuple
  | given (g : Grid) (r theta : List ℝ)

/-- `ZernPol.plot_sum_zernikes_on_fig`, /repo/src/zernpy/zernikepol.py:1199-1225. -/
noncomputable def plotSumOnFig (fuel : Nat) (cs : List ℝ) (ps : List PolItem) (useDefaults : Bool) (surface : SurfaceArg) (space : Bool) : CM Drawing :=
  if useDefaults then
    if cs.length = 0 ∧ ps.length = 0 then CM.raise .valueError
    else do
      let v ← CM.lift (plotCoordinates space)
      let s ← sumZernikes fuel cs ps (.arr [v.1.length] v.1) (.arr [v.2.length] v.2) true
      drawSum v.1 v.2 space "" s
  else match surface with
    | .wrongLength => CM.raise .valueError
    | .plainTuple => CM.raise .attributeError
    | .given g r theta => drawSum r theta space "" (.surface g)

/-- The inner loop of `_plot_zernikes_half_pyramid`, /repo/src/zernpy/zernikepol.py:1242-1250: the cells of row `i` in which something is drawn with the OSA index, and
the next index. -/
def pyramidInner (i : Nat) (ignored : Int) : List Nat → Nat → List ((Nat × Nat) × Nat) × Nat
  | [], k => ([], k)
  | j :: js, k =>
    if (j : Int) > ignored - 1 then (((i, j), k) :: (pyramidInner i ignored js (k + 1)).1, (pyramidInner i ignored js (k + 1)).2)
    else pyramidInner i ignored js k

/-- The outer loop, /repo/src/zernpy/zernikepol.py:1241-1251. -/
def pyramidOuter (nCols : Nat) : List Nat → Int → Nat → List ((Nat × Nat) × Nat)
  | [], _, _ => []
  | i :: is, ignored, k => (pyramidInner i ignored (List.range nCols) k).1 ++ pyramidOuter nCols is (ignored - 1) (pyramidInner i ignored (List.range nCols) k).2

/-- The cells with a picture and their OSA indices, /repo/src/zernpy/zernikepol.py:1237-1251. -/
def halfPyramid : List ((Nat × Nat) × Nat) := pyramidOuter 7 (List.range 6) (7 - 2) 1

/-- A cell of the half pyramid, /repo/src/zernpy/zernikepol.py:1246-1248; the default steps of `gen_zernikes_surface` are 0.01 and `round(np.pi/180, 7)` (1115-1117). -/
noncomputable def pyramidCell (fuel : Nat) (c : (Nat × Nat) × Nat) : CM ((Nat × Nat) × Drawing) := do
  let z ← CM.lift (zernPolInit [("osa", .int c.2)])
  let v ← genZernikesSurface fuel [1] [.pol z.obj] (1 / 100) (174533 / 10 ^ 7) false 250
  let d ← drawSum v.2.1 v.2.2 false "" v.1
  pure (c.1, d)

/-- All cells in turn, /repo/src/zernpy/zernikepol.py:1241-1251. -/
noncomputable def drawCells (fuel : Nat) : List ((Nat × Nat) × Nat) → CM (List ((Nat × Nat) × Drawing))
  | [] => pure []
  | c :: cs => do
    let d ← pyramidCell fuel c
    let ds ← drawCells fuel cs
    pure (d :: ds)

/-- `ZernPol._plot_zernikes_half_pyramid`, /repo/src/zernpy/zernikepol.py:1228-1252: the pictures with their row and column. -/
noncomputable def plotHalfPyramid (fuel : Nat) : CM (List ((Nat × Nat) × Drawing)) := drawCells fuel halfPyramid

/-- The type of the sample image, /repo/src/zernpy/calculations/calc_psfs.py:866-869. -/
def sampleType (maxIntensity : Int) : DType := if maxIntensity ≤ 255 then .int 0 255 else .int 0 65535

/-- `ZernPSF.visualize_convolution`, /repo/src/zernpy/zernpsf.py:481-503: the two images shown, the disk and the convolved disk (`none`: not finite). -/
noncomputable def PsfObj.visualizeConvolution (overflow : ℝ → ℝ) (overflowI : Int → ℝ) (o : PsfObj) (radius : ℝ) (maxIntensity : Int) : Res (Grid × Option Grid) := do
  let disk := getBumpedCircle overflowI radius maxIntensity
  let conv ← o.convoluteImg overflow (sampleType maxIntensity) disk
  pure (disk, conv)

end Verif.Model
