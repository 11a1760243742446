import Verif.Model.Crop

/-!
# Model of the generators of phase images
-/

namespace Verif.Model

/-- `np.linalg.norm(center - np.asarray([i, j]))` with `center = (height // 2, width // 2)`,
/repo/src/zernpy/zernikepol.py:1428,1431,1436 and 1479,1482,1487. -/
noncomputable def imgDist (height width i j : Nat) : ℝ :=
  Real.sqrt ((((height / 2 : Nat) : ℝ) - i) ^ 2 + (((width / 2 : Nat) : ℝ) - j) ^ 2)

/-- `1 + min(img_width, img_height) // 2`, /repo/src/zernpy/zernikepol.py:1430,1481. -/
noncomputable def imgRadius (height width : Nat) : ℝ := ((1 + min width height / 2 : Nat) : ℝ)

open Classical in
/-- `r[j]` of row `i`, /repo/src/zernpy/zernikepol.py:1434-1438,1485-1489. -/
noncomputable def imgR (height width i j : Nat) : ℝ :=
  if imgDist height width i j ≤ imgRadius height width then imgDist height width i j / imgRadius height width else 0

open Classical in
/-- `theta[j]` of row `i`, /repo/src/zernpy/zernikepol.py:1434-1441,1485-1492. -/
noncomputable def imgTheta (height width i j : Nat) : ℝ :=
  if imgDist height width i j ≤ imgRadius height width then
    let theta := arctan2 (((height / 2 : Nat) : ℝ) - i) ((j : ℝ) - ((width / 2 : Nat) : ℝ))
    if theta < 0 then theta + 2 * Real.pi else theta
  else 0

open Classical in
/-- One row of the image: the sum at the vectors `r`, `theta`, then the background set to zero,
/repo/src/zernpy/zernikepol.py:1433-1449,1484-1498. The second loop sets `phases_image[i, j] = 0` outside of the circle. -/
noncomputable def imageRow (fuel : Nat) (cs : List ℝ) (ps : List PolItem) (height width i : Nat) : CM (Nat → ℝ) := do
  let r := (List.range width).map (imgR height width i)
  let theta := (List.range width).map (imgTheta height width i)
  let v ← sumZernikes fuel cs ps (.arr [width] r) (.arr [width] theta) false
  pure fun j => if imgDist height width i j > imgRadius height width then 0
    else match v with
      | .points v => v.item j
      | .surface _ => 0

/-- The loop over the rows, /repo/src/zernpy/zernikepol.py:1433-1449,1484-1498. The first number counts the remaining rows. -/
noncomputable def imageRows (fuel : Nat) (cs : List ℝ) (ps : List PolItem) (height width : Nat) : Nat → Nat → Grid → CM Grid
  | 0, _, S => pure S
  | k + 1, i, S => do
    let row ← imageRow fuel cs ps height width i
    imageRows fuel cs ps height width k (i + 1) { S with entry := fun a b => if a = i then row b else S.entry a b }

/-- `generate_phases_image`, /repo/src/zernpy/zernikepol.py:1455-1499, for non-negative sizes. -/
noncomputable def generatePhasesImage (fuel : Nat) (ps : List PolItem) (cs : List ℝ) (width height : Nat) : CM Grid :=
  imageRows fuel cs ps height width height 0 (Grid.zeros height width)

/-- The outcomes of the calls of the module `random`: the result of `random.choice(selector_list)` and of `random.uniform(-1.5, 1.5)` for each
polynomial, and the results of the additional draws. Nothing is assumed about their distribution, /repo/src/zernpy/zernikepol.py:1412-1425. -/
structure Draws where
  choose : Nat → Bool
  ampl : Nat → ℝ
  index : Nat
  again : ℝ
  shifted : ℝ

open Classical in
/-- The amplitudes of `generate_random_phases`, /repo/src/zernpy/zernikepol.py:1412-1425, for `len` polynomials: zero, or a uniform number;
rounded; one is replaced if all of them are small. -/
noncomputable def randomAmplitudes (d : Draws) (len : Nat) (digits : Int) : Res (List ℝ) :=
  let a := (List.range len).map fun i => npRound digits (if d.choose i then d.ampl i else 0)
  match npMax (a.map fun x => |x|) with
  | .error e => .error e
  | .ok top =>
    if top < 0.08 then
      .ok (a.set d.index (if |d.again| < 0.08 then d.shifted else d.again))
    else .ok a

/-- `generate_random_phases`, /repo/src/zernpy/zernikepol.py:1376-1452: the image, the amplitudes, the polynomials. The numbers of `False`
in `selector_list` (lines 1404-1411) only influence the probability of `Draws.choose`. -/
noncomputable def generateRandomPhases (fuel : Nat) (d : Draws) (maxOrder : Int) (width height : Nat) (digits : Int) :
    CM (Grid × List ℝ × List ZernPol) := do
  let pols ← CM.lift (generatePolynomials maxOrder)
  let a ← CM.lift (randomAmplitudes d pols.length digits)
  let img ← imageRows fuel a (pols.map fun z => .pol z.obj) height width height 0 (Grid.zeros height width)
  pure (img, a, pols)

end Verif.Model
