import Verif.Spec.Zernike

/-!
# Specification: least-squares fits of Zernike polynomials
-/

namespace Verif.Spec

/-- The points `(r, θ)` at which phases are given: pairs if there are as many radii as angles, otherwise the product grid, row by row
(one row per radius). -/
def samplePoints (radii thetas : List ℝ) : List (ℝ × ℝ) :=
  if radii.length = thetas.length then radii.zip thetas else radii.flatMap fun r => thetas.map fun t => (r, t)

/-- Sum of the squared differences between the combination with the coefficients `cs` and the phases. -/
noncomputable def misfit (orders : List (Int × Int)) (points : List (ℝ × ℝ)) (phases : List ℝ) (cs : List ℝ) : ℝ :=
  (List.zipWith (fun p v => (combination cs orders p.1 p.2 - v) ^ 2) points phases).sum

/-- `cs` is a least-squares fit: one coefficient per polynomial, and no other coefficients have a smaller misfit. -/
def LeastSquares (orders : List (Int × Int)) (points : List (ℝ × ℝ)) (phases : List ℝ) (cs : List ℝ) : Prop :=
  cs.length = orders.length ∧ ∀ ds : List ℝ, ds.length = orders.length →
    misfit orders points phases cs ≤ misfit orders points phases ds

/-- The polynomials are linearly independent on the points: only the zero combination vanishes on all of them. -/
def IndependentOn (orders : List (Int × Int)) (points : List (ℝ × ℝ)) : Prop :=
  ∀ ds : List ℝ, ds.length = orders.length → (∀ p ∈ points, combination ds orders p.1 p.2 = 0) → ∀ x ∈ ds, x = 0

/-- Sum of the squares of a list of numbers. -/
noncomputable def energy (l : List ℝ) : ℝ := (l.map fun x => x ^ 2).sum

/-- Quantitative linear independence on the points: a combination with coefficients `ds` has at least `κ` times the sum of the squares of
`ds` as the sum of the squares of its values on the points. (For polynomials that are orthonormal on the points, `κ` is the number of
points.) -/
def Conditioned (κ : ℝ) (orders : List (Int × Int)) (points : List (ℝ × ℝ)) : Prop :=
  ∀ ds : List ℝ, ds.length = orders.length → κ * energy ds ≤ energy (points.map fun p => combination ds orders p.1 p.2)

end Verif.Spec
