import Verif.Model.FloatFit

/-!
# Model of crop_phases_img and fit_polynomials in floating-point arithmetic

The centre of the image and the radius of the circle (halves of integers) are exact as `float`s; everything else is rounded, also the literals `0.001`, `0.055`, `1.002`.
-/

namespace Verif.Model

/-- `np.power((i - center_row), 2) + np.power((j - center_col), 2)`, /repo/src/zernpy/calculations/fit_zernike_pols.py:123, in the arithmetic `F`. -/
noncomputable def pixSquareFl (F : PsfArith) (rows cols i j : Nat) : ℝ :=
  F.fl (F.fl (F.fl ((i : ℝ) - halfSize rows) ^ 2) + F.fl (F.fl ((j : ℝ) - halfSize cols) ^ 2))

/-- `radius` of a pixel, /repo/src/zernpy/calculations/fit_zernike_pols.py:123, in the arithmetic `F`. -/
noncomputable def pixRadiusFl (F : PsfArith) (rows cols i j : Nat) : ℝ :=
  fltRound F 4 (F.fl (F.sqrt (pixSquareFl F rows cols i j) / cropR rows cols))

open Classical in
/-- `theta` of a pixel, /repo/src/zernpy/calculations/fit_zernike_pols.py:124,129-130, in the arithmetic `F`. -/
noncomputable def pixThetaFl (F : PsfArith) (rows cols i j : Nat) : ℝ :=
  let theta := F.atan2 (F.fl (halfSize rows - i)) (F.fl (j - halfSize cols))
  if theta < 0 then F.fl (theta + F.fl (2 * F.pi)) else theta

open Classical in
/-- The body of the loop, /repo/src/zernpy/calculations/fit_zernike_pols.py:123-137, in the arithmetic `F`. -/
noncomputable def cropPixelFl (F : PsfArith) (img : Grid) (crop eps : ℝ) (strict : Bool) (i j : Nat) (s : CropState) : CropState :=
  let radius := pixRadiusFl F img.rows img.cols i j
  if F.fl (radius - crop) < eps then
    let recal := strict = false ∧ F.fl (radius - crop) > F.fl 0.001
    { mask := { s.mask with entry := fun a b => if a = i ∧ b = j then s.mask.entry a b + 1 else s.mask.entry a b }
      phases := s.phases ++ [img.entry i j]
      radii := s.radii ++ [radius]
      thetas := s.thetas ++ [pixThetaFl F img.rows img.cols i j]
      recalibrate := if recal then true else s.recalibrate
      coeff := if recal then (if s.coeff < radius then radius else s.coeff) else s.coeff }
  else s

/-- The double loop, /repo/src/zernpy/calculations/fit_zernike_pols.py:119-137, in the arithmetic `F`. -/
noncomputable def cropLoopFl (F : PsfArith) (img : Grid) (crop eps : ℝ) (strict : Bool) : CropState :=
  (List.range img.rows).foldl
    (fun s i => (List.range img.cols).foldl (fun s j => cropPixelFl F img crop eps strict i j s) s)
    { mask := Grid.zeros img.rows img.cols, phases := [], radii := [], thetas := [], recalibrate := false, coeff := 1 }

open Classical in
/-- `crop_phases_img`, /repo/src/zernpy/calculations/fit_zernike_pols.py:21-151, on a `float` crop radius, in the arithmetic `F`. The warnings are left out. -/
noncomputable def cropPhasesImgFl (F : PsfArith) (image : ImgArg) (cropRadius : ℝ) (strict : Bool) : Res Cropped :=
  let crop := fltRound F 4 cropRadius
  if ¬ (0.5 ≤ crop ∧ crop ≤ 1) then .error .valueError
  else match image with
    | .notArray => .error .valueError
    | .otherDim => .error .valueError
    | .img img =>
      if (if img.rows ≠ img.cols then min img.rows img.cols else img.rows) < 3 then .error .valueError
      else
        let s := cropLoopFl F img crop (F.fl (cropEps img.rows img.cols strict)) strict
        let radii := if s.recalibrate then s.radii.map (fun x => fltRound F 4 (F.fl (x / s.coeff))) else s.radii
        match npMax radii with
        | .error e => .error e
        | .ok top =>
          let radii := if 1 < top ∧ top < F.fl 1.002 then radii.map (fun x => fltRound F 4 (F.fl (x / top))) else radii
          .ok ⟨s.mask, s.phases, radii, s.thetas⟩

/-- `fit_polynomials`, /repo/src/zernpy/zernikepol.py:1502-1551: the coefficients and the cropped image (if requested), in the arithmetic `F`. -/
noncomputable def fltFitPolynomials (F : PsfArith) (fuel : Nat) (lstsq : Lstsq) (image : ImgArg) (os : List PolObj) (cropRadius : ℝ) (strict : Bool)
    (digits : Int) (returnCropped : Bool) : CM (List ℝ × Option Grid) := do
  let c ← CM.lift (cropPhasesImgFl F image cropRadius strict)
  let x ← fltFitZernikes F fuel lstsq c.phases c.radii c.thetas os
  let cropped := match image with
    | .img g => some { g with entry := fun i j => c.mask.entry i j * g.entry i j }
    | _ => none
  pure (x.map (fltRound F digits), if returnCropped then cropped else none)

end Verif.Model
