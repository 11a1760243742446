import Verif.Spec.Radial
import Mathlib.Analysis.SpecialFunctions.Complex.Arg
import Mathlib.MeasureTheory.Integral.Bochner.Basic
import Mathlib.MeasureTheory.Measure.Lebesgue.Basic
import Mathlib.Analysis.SpecialFunctions.Sqrt

/-!
# Specification: the normalised Zernike polynomials and the unit disk

The standard (OSA/ANSI) definition, independent of the code.
-/

namespace Verif.Spec

/-- Angular part: `cos (m θ)` for `m ≥ 0`, `sin (|m| θ)` for `m < 0`. -/
noncomputable def angular (m : Int) (theta : ℝ) : ℝ :=
  if 0 ≤ m then Real.cos ((m : ℝ) * theta) else Real.sin ((|m| : ℤ) * theta)

/-- Normalisation: `√(n+1)` for `m = 0`, `√(2(n+1))` otherwise. -/
noncomputable def norm (m n : Int) : ℝ := Real.sqrt (if m = 0 then (n : ℝ) + 1 else 2 * ((n : ℝ) + 1))

/-- `Z_n^m(r, θ)`. -/
noncomputable def zernike (m n : Int) (r theta : ℝ) : ℝ := norm m n * radial m n r * angular m theta

/-- The linear combination `Σ_i c_i Z_i(r, θ)`; the polynomials are given by their orders `(m, n)`. -/
noncomputable def combination (cs : List ℝ) (orders : List (Int × Int)) (r theta : ℝ) : ℝ :=
  ((cs.zip orders).map fun p => p.1 * zernike p.2.1 p.2.2 r theta).sum

/-- The closed unit disk. -/
def unitDisk : Set (ℝ × ℝ) := {p | p.1 ^ 2 + p.2 ^ 2 ≤ 1}

/-- Distance of a point of the plane to the origin. -/
noncomputable def radius (p : ℝ × ℝ) : ℝ := Real.sqrt (p.1 ^ 2 + p.2 ^ 2)

/-- Polar angle of a point of the plane, in `(-π, π]`. -/
noncomputable def angle (p : ℝ × ℝ) : ℝ := Complex.arg ⟨p.1, p.2⟩

/-- Mean of a function of the polar coordinates over the unit disk (whose area is `π`). -/
noncomputable def diskMean (f : ℝ → ℝ → ℝ) : ℝ := (1 / Real.pi) * ∫ p in unitDisk, f (radius p) (angle p)

end Verif.Spec
