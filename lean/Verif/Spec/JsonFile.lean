import Verif.Model.Json
import Mathlib.Data.Fintype.Defs

/-! # Specification: the quantities of a calibration file -/

namespace Verif.Spec

open Verif.Model

/-- The quantities of a calibration. -/
inductive Quantity where
  | kernel
  | kernelSize
  | pointsR
  | pointsAngle
  | na
  | wavelength
  | pixelSize
  | coefficients
  | polynomials
  deriving DecidableEq

instance : Fintype Quantity :=
  ⟨{.kernel, .kernelSize, .pointsR, .pointsAngle, .na, .wavelength, .pixelSize, .coefficients, .polynomials}, fun x => by cases x <;> decide⟩

/-- The quantity given by an entry; a file gives coefficient(s) and polynomial(s) under one of two keys. -/
def slot : JsonItem → Option Quantity
  | .kernel _ => some .kernel
  | .kernelSize _ => some .kernelSize
  | .pointsR _ => some .pointsR
  | .pointsAngle _ => some .pointsAngle
  | .na _ => some .na
  | .wavelength _ => some .wavelength
  | .pixelSize _ => some .pixelSize
  | .coefficient _ => some .coefficients
  | .amplitudes _ => some .coefficients
  | .polynomial _ => some .polynomials
  | .polynomials _ => some .polynomials
  | .unknown _ => none

/-- Each quantity at most once. -/
def Once (doc : List JsonItem) : Prop := (doc.filterMap slot).Nodup

/-- The names of the entries of a calibration file. -/
def calibrationKeys : List String := ["PSF Kernel", "NA", "Wavelength", "Pixel Size", "Kernel Size", "# of integration points R", "# of integration points angle",
  "Expansion Coefficient", "Polynomial", "Amplitudes", "Polynomials"]

end Verif.Spec
