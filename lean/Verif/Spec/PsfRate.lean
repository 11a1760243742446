import Verif.Spec.Diffraction
import Verif.Spec.Zernike

/-!
# Specification: bounds of the quadrature error of the PSF
-/

namespace Verif.Spec

/-- The first derivative of the radial polynomial at the rim. -/
noncomputable def rimSlope (m n : Int) : ℝ := ((n : ℝ) * (n + 2) - (m : ℝ) ^ 2) / 2

/-- The second derivative of the radial polynomial at the rim. -/
noncomputable def rimCurvature (m n : Int) : ℝ := (rimSlope m n ^ 2 - 2 * rimSlope m n + (m : ℝ) ^ 2) / 2

/-- `Σ |c| N(m, n) f(m, n)` over the terms of a combination of polynomials, with the normalisation factors `N`. -/
noncomputable def weighted (f : Int → Int → ℝ) (cs : List ℝ) (os : List (Int × Int)) : ℝ :=
  ((cs.zip os).map fun t => |t.1| * Spec.norm t.2.1 t.2.2 * f t.2.1 t.2.2).sum

/-- A bound of the error of the numerical integration of the PSF at the optical distance `ρ` from the centre, for a combination of polynomials: the first
term is due to the nodes that the angular rule omits, the others are of the second order in the angular and the radial step. -/
noncomputable def quadratureError (cs : List ℝ) (os : List (Int × Int)) (ρ : ℝ) (nR nPhi : ℕ) : ℝ :=
  4 / nPhi
  + 16 * Real.pi ^ 2 / 9 * ((weighted (fun m _ => (m : ℝ) ^ 2) cs os + ρ) + (weighted (fun m _ => |(m : ℝ)|) cs os + ρ) ^ 2) / (nPhi : ℝ) ^ 2
  + (weighted rimCurvature cs os + 2 * (weighted rimSlope cs os + ρ) + (weighted rimSlope cs os + ρ) ^ 2) / (3 * (nR : ℝ) ^ 2)

end Verif.Spec
