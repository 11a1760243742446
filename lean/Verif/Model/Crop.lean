import Verif.Model.Sums
import Verif.Model.Numeric

/-!
# Model of the cropping of a circle from an image of phases
-/

namespace Verif.Model

/-- The argument `phases_image`: not a `numpy.ndarray`, an array with a number of dimensions other than 2, or an image, /repo/src/zernpy/calculations/fit_zernike_pols.py:69-71. -/
inductive ImgArg where
  | notArray
  | otherDim
  | img (g : Grid)

/-- `(rows // 2) - 0.5` for even `rows`, `(rows - 1) // 2` for odd ones,
/repo/src/zernpy/calculations/fit_zernike_pols.py:90-97 (also for the radius, lines 99-107). -/
noncomputable def halfSize (size : Nat) : ℝ :=
  if size % 2 = 0 then ((size / 2 : Nat) : ℝ) - 0.5 else (((size - 1) / 2 : Nat) : ℝ)

/-- The radius of the circle in pixels, /repo/src/zernpy/calculations/fit_zernike_pols.py:75-81,99-107. -/
noncomputable def cropR (rows cols : Nat) : ℝ :=
  let lo := if rows ≠ cols then min rows cols else rows
  let hi := if rows ≠ cols then max rows cols else rows
  if hi - lo < 2 then halfSize hi else halfSize lo

/-- `radius_epsilon`, /repo/src/zernpy/calculations/fit_zernike_pols.py:109-111. -/
noncomputable def cropEps (rows cols : Nat) (strict : Bool) : ℝ :=
  if strict = false ∧ ((rows % 2 = 0 ∧ cols % 2 = 0) ∨ ((rows : Int) - cols).natAbs = 1) then 0.055 else 0.001

/-- `radius` of a pixel, /repo/src/zernpy/calculations/fit_zernike_pols.py:123. -/
noncomputable def pixRadius (rows cols i j : Nat) : ℝ :=
  npRound 4 (Real.sqrt (((i : ℝ) - halfSize rows) ^ 2 + ((j : ℝ) - halfSize cols) ^ 2) / cropR rows cols)

open Classical in
/-- `theta` of a pixel, /repo/src/zernpy/calculations/fit_zernike_pols.py:124,129-130. -/
noncomputable def pixTheta (rows cols i j : Nat) : ℝ :=
  let theta := arctan2 (halfSize rows - i) (j - halfSize cols)
  if theta < 0 then theta + 2 * Real.pi else theta

/-- The variables of the loop over the pixels. The vectors of length `rows*cols` filled up to `vector_index` and cut at the end
(lines 72-73,132,139-141) are lists, /repo/src/zernpy/calculations/fit_zernike_pols.py:71-150. -/
structure CropState where
  mask : Grid
  phases : List ℝ
  radii : List ℝ
  thetas : List ℝ
  recalibrate : Bool
  coeff : ℝ

open Classical in
/-- The body of the loop, /repo/src/zernpy/calculations/fit_zernike_pols.py:123-137. -/
noncomputable def cropPixel (img : Grid) (crop eps : ℝ) (strict : Bool) (i j : Nat) (s : CropState) : CropState :=
  let radius := pixRadius img.rows img.cols i j
  if radius - crop < eps then
    let recal := strict = false ∧ radius - crop > 0.001
    { mask := { s.mask with entry := fun a b => if a = i ∧ b = j then s.mask.entry a b + 1 else s.mask.entry a b }
      phases := s.phases ++ [img.entry i j]
      radii := s.radii ++ [radius]
      thetas := s.thetas ++ [pixTheta img.rows img.cols i j]
      recalibrate := if recal then true else s.recalibrate
      coeff := if recal then (if s.coeff < radius then radius else s.coeff) else s.coeff }
  else s

/-- The double loop, /repo/src/zernpy/calculations/fit_zernike_pols.py:119-137. -/
noncomputable def cropLoop (img : Grid) (crop eps : ℝ) (strict : Bool) : CropState :=
  (List.range img.rows).foldl
    (fun s i => (List.range img.cols).foldl (fun s j => cropPixel img crop eps strict i j s) s)
    { mask := Grid.zeros img.rows img.cols, phases := [], radii := [], thetas := [], recalibrate := false, coeff := 1 }

/-- What `crop_phases_img` returns, /repo/src/zernpy/calculations/fit_zernike_pols.py:151. -/
structure Cropped where
  mask : Grid
  phases : List ℝ
  radii : List ℝ
  thetas : List ℝ

open Classical in
/-- `crop_phases_img`, /repo/src/zernpy/calculations/fit_zernike_pols.py:21-151, on a numerical crop radius. The warnings are left out. -/
noncomputable def cropPhasesImg (image : ImgArg) (cropRadius : ℝ) (strict : Bool) : Res Cropped :=
  let crop := npRound 4 cropRadius
  if ¬ (0.5 ≤ crop ∧ crop ≤ 1) then .error .valueError
  else match image with
    | .notArray => .error .valueError
    | .otherDim => .error .valueError
    | .img img =>
      if (if img.rows ≠ img.cols then min img.rows img.cols else img.rows) < 3 then .error .valueError
      else
        let s := cropLoop img crop (cropEps img.rows img.cols strict) strict
        let radii := if s.recalibrate then s.radii.map (fun x => npRound 4 (x / s.coeff)) else s.radii
        match npMax radii with
        | .error e => .error e
        | .ok top =>
          let radii := if 1 < top ∧ top < 1.002 then radii.map (fun x => npRound 4 (x / top)) else radii
          .ok ⟨s.mask, s.phases, radii, s.thetas⟩

end Verif.Model
