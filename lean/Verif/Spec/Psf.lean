import Mathlib.Analysis.SpecialFunctions.Complex.Circle
import Mathlib.Algebra.BigOperators.Ring.Finset
import Verif.Spec.Zernike

/-!
# Specification: point spread function by numerical integration over the pupil

`Φ p φ` is the aberration phase at the pupil point with the polar coordinates `(p, φ)`; `(r, θ)` are the (scaled) polar coordinates in the image.
-/

namespace Verif.Spec

/-- Integrand of the diffraction integral, including the Jacobian `p`. -/
noncomputable def pupilField (Φ : ℝ → ℝ → ℝ) (r θ p φ : ℝ) : ℂ :=
  Complex.exp (Complex.I * ((Φ p φ - r * p * Real.cos (φ - θ) : ℝ) : ℂ)) * (p : ℂ)

/-- Trapezoidal rule on `[0, 1]` with `N` panels. -/
noncomputable def trapezoid (N : ℕ) (f : ℝ → ℂ) : ℂ :=
  (1 / (N : ℂ)) * (f 0 / 2 + ∑ k ∈ Finset.Ioo 0 N, f ((k : ℝ) / (N : ℝ)) + f 1 / 2)

/-- Simpson's rule on `[0, 2π]` with `N` (even) panels: weight 2 for the even inner nodes, 4 for the odd nodes. -/
noncomputable def simpson (N : ℕ) (g : ℝ → ℂ) : ℂ :=
  ((2 * Real.pi / N : ℝ) : ℂ) / 3 * (g 0 + g (2 * Real.pi)
    + 2 * ∑ k ∈ (Finset.Ioo 0 N).filter (fun k => k % 2 = 0), g ((k : ℝ) * (2 * Real.pi / N))
    + 4 * ∑ k ∈ (Finset.Ioo 0 N).filter (fun k => k % 2 = 1), g ((k : ℝ) * (2 * Real.pi / N)))

/-- The rule used by zernpy on `[0, 2π]`: as Simpson's, but the even nodes end before `N - 2` and the odd nodes before `N - 1`. -/
noncomputable def angularRule (N : ℕ) (g : ℝ → ℂ) : ℂ :=
  ((2 * Real.pi / N : ℝ) : ℂ) / 3 * (g 0 + g (2 * Real.pi)
    + 2 * ∑ k ∈ (Finset.Ioo 0 (N - 2)).filter (fun k => k % 2 = 0), g ((k : ℝ) * (2 * Real.pi / N))
    + 4 * ∑ k ∈ (Finset.Ioo 0 (N - 1)).filter (fun k => k % 2 = 1), g ((k : ℝ) * (2 * Real.pi / N)))

/-- The field at the image point, integrated numerically over the pupil radius and angle. -/
noncomputable def psfField (Φ : ℝ → ℝ → ℝ) (r θ : ℝ) (nR nPhi : ℕ) : ℂ :=
  angularRule nPhi fun φ => trapezoid nR fun p => pupilField Φ r θ p φ

/-- PSF value: intensity relative to a uniform pupil (of area `π`). -/
noncomputable def psfValue (Φ : ℝ → ℝ → ℝ) (r θ : ℝ) (nR nPhi : ℕ) : ℝ := ‖psfField Φ r θ nR nPhi‖ ^ 2 / Real.pi ^ 2

/-- The fraction of the total weight `2π` that `angularRule` gives to a constant function: 1 for an exact rule. -/
noncomputable def angularFraction (N : ℕ) : ℝ :=
  if N % 2 = 1 then (if N = 1 then 2 / 3 else 1 - 1 / N) else (if N = 2 then 1 / 3 else 1 - 2 / N)

/-- The diffraction integrand in Cartesian image coordinates: `p (x cos φ + y sin φ)` is the scalar product of the pupil point and the image
point. -/
noncomputable def pupilFieldXY (Φ : ℝ → ℝ → ℝ) (x y p φ : ℝ) : ℂ :=
  Complex.exp (Complex.I * ((Φ p φ - p * (x * Real.cos φ + y * Real.sin φ) : ℝ) : ℂ)) * (p : ℂ)

/-- PSF value at the image point with the Cartesian coordinates `(x, y)`. -/
noncomputable def psfXY (Φ : ℝ → ℝ → ℝ) (x y : ℝ) (nR nPhi : ℕ) : ℝ :=
  ‖angularRule nPhi fun φ => trapezoid nR fun p => pupilFieldXY Φ x y p φ‖ ^ 2 / Real.pi ^ 2

end Verif.Spec
