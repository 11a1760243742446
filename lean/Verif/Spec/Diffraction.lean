import Verif.Spec.Psf
import Mathlib.MeasureTheory.Integral.IntervalIntegral.Basic

/-!
# Specification: the exact PSF

The diffraction integral over the circular pupil of radius 1, in polar coordinates of the pupil.
-/

namespace Verif.Spec

/-- `∫_0^2π ∫_0^1 exp(i (Φ(p, φ) - p (x cos φ + y sin φ))) p dp dφ`. -/
noncomputable def exactField (Φ : ℝ → ℝ → ℝ) (x y : ℝ) : ℂ :=
  ∫ φ in (0 : ℝ)..2 * Real.pi, ∫ p in (0 : ℝ)..1, pupilFieldXY Φ x y p φ

/-- Exact PSF value at the image point `(x, y)`: intensity relative to the centre of the unaberrated PSF. -/
noncomputable def exactPsf (Φ : ℝ → ℝ → ℝ) (x y : ℝ) : ℝ := ‖exactField Φ x y‖ ^ 2 / Real.pi ^ 2

/-- The exact PSF at the pixel in row `i` and column `j` of a kernel of `S × S` pixels (see `pixelPsf`). -/
noncomputable def exactPixel (Φ : ℝ → ℝ → ℝ) (scale : ℝ) (S : ℕ) (i j : ℕ) : ℝ :=
  exactPsf Φ (scale * (((S : ℝ) - 1) / 2 - j)) (scale * (((S : ℝ) - 1) / 2 - i))

end Verif.Spec
