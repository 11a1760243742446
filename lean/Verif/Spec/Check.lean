import Verif.Spec.Psf

/-! # Specification: the pupil integrated over the angle first, then over the radius -/

namespace Verif.Spec

/-- Trapezoidal rule on `[0, 2π]` with `N` panels. -/
noncomputable def circleTrapezoid (N : ℕ) (g : ℝ → ℂ) : ℂ :=
  ((2 * Real.pi / N : ℝ) : ℂ) * (g 0 / 2 + ∑ k ∈ Finset.Ioo 0 N, g ((k : ℝ) * (2 * Real.pi / N)) + g (2 * Real.pi) / 2)

/-- Simpson's rule on `[0, 1]` without the even node `N - 2` and the odd node `N - 1`. -/
noncomputable def radiusRule (N : ℕ) (g : ℝ → ℂ) : ℂ :=
  ((1 / N : ℝ) : ℂ) / 3 * (g 0 + g 1
    + 2 * ∑ k ∈ (Finset.Ioo 0 (N - 2)).filter (fun k => k % 2 = 0), g ((k : ℝ) * (1 / N))
    + 4 * ∑ k ∈ (Finset.Ioo 0 (N - 1)).filter (fun k => k % 2 = 1), g ((k : ℝ) * (1 / N)))

/-- The intensity in the image point `(r, θ)`, the field divided by `2π`: twice the area of the pupil. -/
noncomputable def angleFirstValue (Φ : ℝ → ℝ → ℝ) (r θ : ℝ) (nR nPhi : ℕ) : ℝ :=
  (‖radiusRule nR fun p => circleTrapezoid nPhi fun φ => pupilField Φ r θ p φ‖ / (2 * Real.pi)) ^ 2

end Verif.Spec
