import Verif.Model.Parallel
import Verif.Model.FloatPsf

/-!
# Model of the parallel kernel calculation of `ZernPSF` in floating-point arithmetic, `zernpsf.py:659-762`

As Verif.Model.Parallel, with every operation rounded as in Verif.Model.FloatPsf.
-/

namespace Verif.Model

/-- The objects exchanged with the workers: the tuples `(phi, (zernpol, r, theta, alpha, n_int_r_points))`,
/repo/src/zernpy/zernpsf.py:696-697, and the complex results. -/
inductive FltItem where
  | task (phi : ℝ) (o : PolObj) (r theta alpha : ℝ) (nR : Int)
  | value (z : CFl)

/-- `radial_integral_s`, /repo/src/zernpy/calculations/calc_psfs.py:174-190, in a worker with the coefficient tables `s`, in the arithmetic `F`; `none`: an
exception (also for something that is not a tuple). -/
noncomputable def fltRadialTask (F : PsfArith) (fuel : Nat) (s : CoefState) : FltItem → Option FltItem
  | .task phi o r theta alpha nR =>
    match (fltRadialIntegral F (fltSinglePhase F fuel o alpha) r theta phi nR s).1 with
    | .ok z => some (.value z)
    | .error _ => none
  | .value _ => none

/-- The angles `i*h_phi` of the parameter list for the even nodes, /repo/src/zernpy/zernpsf.py:693,697. -/
noncomputable def fltEvenAngles (F : PsfArith) (nPhi : Int) : List ℝ :=
  (pyRange 2 (nPhi - 2) 2).map fun (i : Int) => F.fl ((i : ℝ) * F.fl (F.fl (2 * F.pi) / (nPhi : ℝ)))

/-- The angles `i*h_phi` of the parameter list for the odd nodes, /repo/src/zernpy/zernpsf.py:693,703. -/
noncomputable def fltOddAngles (F : PsfArith) (nPhi : Int) : List ℝ :=
  (pyRange 1 (nPhi - 1) 2).map fun (i : Int) => F.fl ((i : ℝ) * F.fl (F.fl (2 * F.pi) / (nPhi : ℝ)))

/-- The end of `get_psf_point_r_parallel`, /repo/src/zernpy/zernpsf.py:706-710, in the main process. -/
noncomputable def fltPointFromSums (F : PsfArith) (ph : FltPhase) (r theta : ℝ) (nR nPhi : Int) (even odd : CFl) : CM ℝ := do
  let yA ← fltRadialIntegral F ph r theta 0 nR
  let yB ← fltRadialIntegral F ph r theta (F.fl (2 * F.pi)) nR
  let c := F.fl (F.fl (F.fl (2 * F.pi) / (nPhi : ℝ)) / 3)
  let re := fltAngularPart F c yA.re yB.re even.re odd.re
  let im := fltAngularPart F c yA.im yB.im even.im odd.im
  pure (F.fl (F.sq (F.hypot re im) * F.fl (1 / F.fl (F.pi * F.pi))))

/-- `get_psf_point_r_parallel`, /repo/src/zernpy/zernpsf.py:676-710; `even` and `odd` are the lists returned by the workers, summed by `numpy.sum`.
A closed manager returns `None`, see `pointParallel`. The numbers of points are never 0 (at least 36 and 20, or the defaults). -/
noncomputable def fltPointParallel (F : PsfArith) (ph : FltPhase) (r theta : ℝ) (nR nPhi : Int) (w : Workers) (even odd : List CFl) : CM ℝ :=
  match w with
  | .none => fltPointFromSums F ph r theta nR nPhi ⟨0, 0⟩ ⟨0, 0⟩
  | .running _ => fltPointFromSums F ph r theta nR nPhi (fltSum F even) (fltSum F odd)
  | .released => do
    let _ ← fltRadialIntegral F ph r theta 0 nR
    let _ ← fltRadialIntegral F ph r theta (F.fl (2 * F.pi)) nR
    CM.raise .typeError

/-- The loops of `get_kernel_parallel` and the normalisation, /repo/src/zernpy/zernpsf.py:734-750. -/
noncomputable def PsfObj.fltParallelLoops (F : PsfArith) (fuel : Nat) (o : PsfObj) (z : ZernPol) (w : Workers) (even odd : Nat → Nat → List CFl)
    (normalize : Bool) : CM Grid := do
  let g ← fillRows (fun i j => fltPointParallel F (fltSinglePhase F fuel z.obj o.alpha) (fltKernelDist F o.kernelSize o.k o.NA o.pixelSize i j)
    (fltKernelTheta F o.kernelSize i j) o.nR o.nPhi w (even i j) (odd i j)) o.kernelSize.toNat o.kernelSize.toNat 0
    (Grid.zeros o.kernelSize.toNat o.kernelSize.toNat)
  if normalize then CM.lift (fltNormalize F g) else pure g

/-- `get_kernel_parallel` of an object with one polynomial, /repo/src/zernpy/zernpsf.py:712-750: the returned kernel. `get_kernel_size` is called
without its argument `NA` (line 730): a `TypeError`. -/
noncomputable def PsfObj.fltKernelParallel (F : PsfArith) (fuel : Nat) (o : PsfObj) (z : ZernPol) (w : Workers) (even odd : Nat → Nat → List CFl)
    (normalize : Bool) : CM Grid :=
  if o.kernelSize < 3 then CM.raise .typeError else o.fltParallelLoops F fuel z w even odd normalize

end Verif.Model
