import Verif.Spec.Diffraction
import Mathlib.MeasureTheory.Integral.IntervalIntegral.Periodic

/-! # Symmetries of the exact PSF -/

namespace Verif.Proofs
open Verif.Spec

theorem periodic_inner (Φ : ℝ → ℝ → ℝ) (hper : ∀ p φ, Φ p (φ + 2 * Real.pi) = Φ p φ) (x y : ℝ) :
    Function.Periodic (fun φ => ∫ p in (0 : ℝ)..1, pupilFieldXY Φ x y p φ) (2 * Real.pi) := by
  intro φ
  simp only [pupilFieldXY, hper, Real.cos_add_two_pi, Real.sin_add_two_pi]

/-- Rotation of the phase in the pupil by the angle `α` rotates the PSF by `α`. -/
theorem exactPsf_rotated (Φ : ℝ → ℝ → ℝ) (hper : ∀ p φ, Φ p (φ + 2 * Real.pi) = Φ p φ) (α x y : ℝ) :
    exactPsf (fun p φ => Φ p (φ - α)) (x * Real.cos α - y * Real.sin α) (x * Real.sin α + y * Real.cos α) = exactPsf Φ x y := by
  unfold exactPsf
  have : exactField (fun p φ => Φ p (φ - α)) (x * Real.cos α - y * Real.sin α) (x * Real.sin α + y * Real.cos α) = exactField Φ x y := by
    unfold exactField
    have e : ∀ p φ, pupilFieldXY (fun p φ => Φ p (φ - α)) (x * Real.cos α - y * Real.sin α) (x * Real.sin α + y * Real.cos α) p φ =
        pupilFieldXY Φ x y p (φ - α) := by
      intro p φ
      unfold pupilFieldXY
      rw [Real.cos_sub, Real.sin_sub]
      congr 5
      ring
    simp only [e]
    rw [intervalIntegral.integral_comp_sub_right (fun φ => ∫ p in (0 : ℝ)..1, pupilFieldXY Φ x y p φ)]
    have := (periodic_inner Φ hper x y).intervalIntegral_add_eq (0 - α) 0
    rw [← show 0 - α + 2 * Real.pi = 2 * Real.pi - α by ring, this, zero_add]
  rw [this]

/-- Mirroring of the phase in the pupil mirrors the PSF. -/
theorem exactPsf_mirrored (Φ : ℝ → ℝ → ℝ) (hper : ∀ p φ, Φ p (φ + 2 * Real.pi) = Φ p φ) (x y : ℝ) :
    exactPsf (fun p φ => Φ p (-φ)) x (-y) = exactPsf Φ x y := by
  unfold exactPsf
  have : exactField (fun p φ => Φ p (-φ)) x (-y) = exactField Φ x y := by
    unfold exactField
    have e : ∀ p φ, pupilFieldXY (fun p φ => Φ p (-φ)) x (-y) p φ = pupilFieldXY Φ x y p (-φ) := by
      intro p φ
      unfold pupilFieldXY
      rw [Real.cos_neg, Real.sin_neg]
      congr 5
      ring
    simp only [e]
    rw [intervalIntegral.integral_comp_neg (fun φ => ∫ p in (0 : ℝ)..1, pupilFieldXY Φ x y p φ)]
    have := (periodic_inner Φ hper x y).intervalIntegral_add_eq (-(2 * Real.pi)) 0
    rw [neg_add_cancel, zero_add] at this
    rw [neg_zero, this]
  rw [this]

end Verif.Proofs
