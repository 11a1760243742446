import Mathlib.Analysis.SpecialFunctions.Trigonometric.Basic
import Mathlib.Analysis.SpecialFunctions.Sqrt

/-!
# Specification: pixels of an image and the circle inscribed in it

Pixel `(i, j)` is in row `i` (counted downwards) and column `j`.
-/

namespace Verif.Spec

/-- All pixels of an image, row by row. -/
def allPixels (rows cols : Nat) : List (Nat × Nat) :=
  (List.range rows).flatMap fun i => (List.range cols).map fun j => (i, j)

/-- Horizontal coordinate of a pixel with respect to the centre of the image. -/
noncomputable def pixelX (cols : Nat) (p : Nat × Nat) : ℝ := p.2 - ((cols : ℝ) - 1) / 2

/-- Vertical coordinate (upwards) of a pixel with respect to the centre of the image. -/
noncomputable def pixelY (rows : Nat) (p : Nat × Nat) : ℝ := ((rows : ℝ) - 1) / 2 - p.1

/-- Distance of a pixel to the centre of the image. -/
noncomputable def pixelDist (rows cols : Nat) (p : Nat × Nat) : ℝ := Real.sqrt (pixelX cols p ^ 2 + pixelY rows p ^ 2)

/-- Radius of the circle inscribed in the image (through the centres of the border pixels); if the sizes differ by one pixel, the larger one
counts. -/
noncomputable def inscribedRadius (rows cols : Nat) : ℝ :=
  (((if max rows cols - min rows cols < 2 then max rows cols else min rows cols : Nat) : ℝ) - 1) / 2

end Verif.Spec
