import Verif.Model.FloatSums
import Verif.Model.Images

/-!
# Model of generate_phases_image in floating-point arithmetic

The differences of the pixel indices, the sum of their squares and the radius of the circle are integers (exact as `float`s below 2^53); the distance, the
normalised radius, the angle and the sum of the polynomials are rounded. Vectors are evaluated element by element.
-/

namespace Verif.Model

/-- `np.linalg.norm(center - np.asarray([i, j]))`, /repo/src/zernpy/zernikepol.py:1479,1482,1487,1496. -/
noncomputable def imgDistFl (F : PsfArith) (height width i j : Nat) : ℝ :=
  F.sqrt ((((height / 2 : Nat) : ℝ) - i) ^ 2 + (((width / 2 : Nat) : ℝ) - j) ^ 2)

open Classical in
/-- `r[j]` of row `i`, /repo/src/zernpy/zernikepol.py:1485-1489. -/
noncomputable def imgRFl (F : PsfArith) (height width i j : Nat) : ℝ :=
  if imgDistFl F height width i j ≤ imgRadius height width then F.fl (imgDistFl F height width i j / imgRadius height width) else 0

open Classical in
/-- `theta[j]` of row `i`, /repo/src/zernpy/zernikepol.py:1485-1492. -/
noncomputable def imgThetaFl (F : PsfArith) (height width i j : Nat) : ℝ :=
  if imgDistFl F height width i j ≤ imgRadius height width then
    let theta := F.atan2 (((height / 2 : Nat) : ℝ) - i) ((j : ℝ) - ((width / 2 : Nat) : ℝ))
    if theta < 0 then F.fl (theta + F.fl (2 * F.pi)) else theta
  else 0

/-- `ZernPol.sum_zernikes` for two vectors of the same length, /repo/src/zernpy/zernikepol.py:955-969,1493. -/
noncomputable def fltSumPoints (F : PsfArith) (fuel : Nat) (l : List (ℝ × PolObj)) : List (ℝ × ℝ) → CM (List ℝ)
  | [] => pure []
  | (r, t) :: rest => do
    let v ← fltSumPoint F fuel r t l
    let vs ← fltSumPoints F fuel l rest
    pure (v :: vs)

open Classical in
/-- One row of the image: the sum at the vectors `r`, `theta` (an error for an empty vector and for radii outside of the unit circle, lines 1280-1284), then the
background set to zero, /repo/src/zernpy/zernikepol.py:1484-1498. -/
noncomputable def imageRowFl (F : PsfArith) (fuel : Nat) (l : List (ℝ × PolObj)) (height width i : Nat) : CM (Nat → ℝ) := do
  if width = 0 ∨ ∃ j, j < width ∧ (imgRFl F height width i j < 0 ∨ imgRFl F height width i j > 1) then CM.raise .valueError
  let v ← fltSumPoints F fuel l ((List.range width).map fun j => (imgRFl F height width i j, imgThetaFl F height width i j))
  pure fun j => if imgDistFl F height width i j > imgRadius height width then 0 else v.getD j 0

/-- The loop over the rows, /repo/src/zernpy/zernikepol.py:1484-1498. The first number counts the remaining rows. -/
noncomputable def imageRowsFl (F : PsfArith) (fuel : Nat) (l : List (ℝ × PolObj)) (height width : Nat) : Nat → Nat → Grid → CM Grid
  | 0, _, S => pure S
  | k + 1, i, S => do
    let row ← imageRowFl F fuel l height width i
    imageRowsFl F fuel l height width k (i + 1) { S with entry := fun a b => if a = i then row b else S.entry a b }

/-- `generate_phases_image`, /repo/src/zernpy/zernikepol.py:1455-1499, for non-negative sizes, on the amplitudes zipped with the polynomials. -/
noncomputable def generatePhasesImageFl (F : PsfArith) (fuel : Nat) (l : List (ℝ × PolObj)) (width height : Nat) : CM Grid :=
  imageRowsFl F fuel l height width height 0 (Grid.zeros height width)

end Verif.Model
