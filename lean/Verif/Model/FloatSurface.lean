import Verif.Model.FloatSums
import Verif.Model.FloatNodes

/-!
# Model of gen_zernikes_surface in floating-point arithmetic
-/

namespace Verif.Model

/-- `ZernPol.gen_zernikes_surface`, /repo/src/zernpy/zernikepol.py:1115-1152, in the arithmetic `F`: the surface, the radii, the angles. The list holds
the coefficients with their polynomials (lists of equal lengths). -/
noncomputable def genZernikesSurfaceFl (F : PsfArith) (fuel : Nat) (l : List (ℝ × PolObj)) (rStep thetaStep : ℝ) (equalN : Bool) (nPoints : Int) :
    CM (Grid × List ℝ × List ℝ) := do
  let v ← CM.lift (if equalN then .ok (genEqualPolarMeshFl F.toFloatArith nPoints) else genPolarCoordinatesFl F.toFloatArith rStep thetaStep)
  let s ← fltSumSurface F fuel v.1 v.2 l
  pure (s, v.1, v.2)

end Verif.Model
