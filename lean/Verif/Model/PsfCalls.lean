import Verif.Model.Parallel

/-!
# Histories of calls on one `ZernPSF` object

All methods that change an object: `set_physical_props`, `set_calculation_props`, `calculate_psf_kernel`, `crop_kernel`, `get_kernel_parallel`. Files: `Model/Json.lean`, `Model/World.lean`.
-/

namespace Verif.Model

/-- A call of a method that can change a `ZernPSF` object, with any arguments, in any environment, the methods at /repo/src/zernpy/zernpsf.py:151-549 and 712-750. For
`get_kernel_parallel` the state of the workers and the sums of what they return for each pixel are arbitrary (more than what can happen). -/
inductive PsfCall where
  | setPhysicalProps (NA wavelength : ℝ) (coeff : CoeffArg) (px : ℝ)
  | setCalculationProps (size nR nPhi : Int)
  | calculate (env : Env) (suppress normalized : Bool) (accelerated : Option Bool)
  | crop (part : ℝ)
  | parallel (fuel : Nat) (w : Workers) (even odd : Nat → Nat → ℂ) (normalize : Bool)

/-- `get_kernel_parallel` divides 0 by 0 (an object for several polynomials, or zeros from the workers): the kernel becomes NaN, /repo/src/zernpy/zernpsf.py:749. -/
def ParallelNan (r : Res MaybeNan) (normalize : Bool) : Prop :=
  normalize = true ∧ (r = .ok .nan ∨ ∃ g, r = .ok (.finite g) ∧ ∀ i j, g.entry i j = 0)

open Classical in
/-- The object and the coefficient tables after `get_kernel_parallel`, whether it returned or raised, /repo/src/zernpy/zernpsf.py:712-750. A call that stores NaN is left out
of the histories (it does nothing here): kernels with NaN are in `Model/NonFinite.lean`. -/
noncomputable def PsfObj.afterParallel (o : PsfObj) (fuel : Nat) (w : Workers) (even odd : Nat → Nat → ℂ) (normalize : Bool) (s : CoefState) : PsfObj × CoefState :=
  if ParallelNan (o.kernelParallel fuel w even odd normalize s).1 normalize then (o, s) else (o.kernelParallel fuel w even odd normalize s).2

/-- The object and the coefficient tables after a call, whether it returned or raised, the methods at /repo/src/zernpy/zernpsf.py:151-549 and 712-750. -/
noncomputable def PsfCall.run (x : PsfObj × CoefState) : PsfCall → PsfObj × CoefState
  | .setPhysicalProps NA wl c px => ((x.1.setPhysicalProps NA wl c px).2, x.2)
  | .setCalculationProps size nR nPhi => ((x.1.setCalculationProps size nR nPhi).2, x.2)
  | .calculate env suppress normalized accelerated => (x.1.calculate env suppress normalized accelerated x.2).2
  | .crop part => ((x.1.crop part).2, x.2)
  | .parallel fuel w even odd normalize => x.1.afterParallel fuel w even odd normalize x.2

/-- The object and the coefficient tables after a sequence of calls on a new object, the methods at /repo/src/zernpy/zernpsf.py:151-549 and 712-750. -/
noncomputable def afterPsfCalls (o : PsfObj) (s : CoefState) (calls : List PsfCall) : PsfObj × CoefState := calls.foldl PsfCall.run (o, s)

end Verif.Model
