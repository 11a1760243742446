import Mathlib.MeasureTheory.Integral.IntervalIntegral.Basic
import Mathlib.Analysis.SpecialFunctions.Trigonometric.Basic

/-! # Specification: the Bessel functions of the first kind of the orders 0 and 1 (Bessel's integral) -/

namespace Verif.Spec

/-- `J_0(x) = 1/π ∫_0^π cos(x sin τ) dτ`. -/
noncomputable def besselJ0 (x : ℝ) : ℝ := (1 / Real.pi) * ∫ τ in (0 : ℝ)..Real.pi, Real.cos (x * Real.sin τ)

/-- `J_1(x) = 1/π ∫_0^π cos(τ - x sin τ) dτ`. -/
noncomputable def besselJ1 (x : ℝ) : ℝ := (1 / Real.pi) * ∫ τ in (0 : ℝ)..Real.pi, Real.cos (τ - x * Real.sin τ)

end Verif.Spec
