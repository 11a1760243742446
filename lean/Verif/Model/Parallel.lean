import Verif.Model.PsfObj
import Verif.Model.Dispenser

/-!
# Model of the parallel kernel calculation of `ZernPSF`, `zernpsf.py:659-762`

The main process and the workers have separate memories, so each has its own coefficient tables. What the workers return for the even and the
odd angles of a pixel is an argument here (`even`, `odd`); which values these can be is given by the model of the dispenser (`Model/Dispenser.lean`)
for the function `radialTask`. Printing and timing are left out.
-/

namespace Verif.Model

/-- The objects exchanged with the workers: the tuples `(phi, (zernpol, r, theta, alpha, n_int_r_points))`,
/repo/src/zernpy/zernpsf.py:696-697, and the complex results. -/
inductive Item where
  | task (phi : ℝ) (o : PolObj) (r theta alpha : ℝ) (nR : Int)
  | value (z : ℂ)

/-- `radial_integral_s`, /repo/src/zernpy/calculations/calc_psfs.py:174-190, in a worker with the coefficient tables `s`; `none`: an
exception (also for something that is not a tuple). -/
noncomputable def radialTask (fuel : Nat) (s : CoefState) : Item → Option Item
  | .task phi o r theta alpha nR =>
    match (radialIntegral (singlePhase fuel o alpha) r theta phi nR s).1 with
    | .ok z => some (.value z)
    | .error _ => none
  | .value _ => none

/-- The attribute `__ParallelCalc`: `None`, a manager with `n` workers, a closed manager, /repo/src/zernpy/zernpsf.py:659-674,/repo/src/zernpy/zernpsf.py:752-762. -/
inductive Workers where
  | none
  | running (n : Nat)
  | released

/-- `initialize_parallel_workers`, /repo/src/zernpy/zernpsf.py:659-674; `cpu` is `os.cpu_count()`. -/
def PsfObj.initializeWorkers (o : PsfObj) (cpu : Nat) (w : Workers) : Res Workers :=
  match w with
  | .none =>
    if o.airy then .ok .none
    else
      match Dispenser.managerInit true cpu (some 4) 10 with
      | .started n => .ok (.running n)
      | .typeError => .error .typeError
      | .valueError => .error .valueError
  | w => .ok w

/-- `deinitialize_workers`, /repo/src/zernpy/zernpsf.py:752-762. -/
def releaseWorkers : Workers → Workers
  | .none => .none
  | _ => .released

/-- The angles of the parameter lists, /repo/src/zernpy/zernpsf.py:697,703. -/
noncomputable def evenAngles (nPhi : Int) : List ℝ := (pyRange 2 (nPhi - 2) 2).map fun (i : Int) => (i : ℝ) * (2 * Real.pi / (nPhi : ℝ))
/-- The parameters of the odd nodes, /repo/src/zernpy/zernpsf.py:703-704. -/
noncomputable def oddAngles (nPhi : Int) : List ℝ := (pyRange 1 (nPhi - 1) 2).map fun (i : Int) => (i : ℝ) * (2 * Real.pi / (nPhi : ℝ))

/-- The end of `get_psf_point_r_parallel`, /repo/src/zernpy/zernpsf.py:706-710, in the main process. -/
noncomputable def pointFromSums (phase : Phase) (r theta : ℝ) (nR nPhi : Int) (even odd : ℂ) : CM ℝ := do
  let yA ← radialIntegral phase r theta 0 nR
  let yB ← radialIntegral phase r theta (2 * Real.pi) nR
  let integralSum := ((2 * Real.pi / (nPhi : ℝ) / 3 : ℝ) : ℂ) * (yA + yB + 2 * even + 4 * odd)
  pure (‖integralSum‖ ^ 2 * (1 / (Real.pi * Real.pi)))

/-- `get_psf_point_r_parallel`, /repo/src/zernpy/zernpsf.py:676-710. `even` and `odd` are the sums of the returned lists. A closed manager returns
`None` for the even angles, the sum of which is `None`: the sums are only used in line 709, after the calculation of `yA` and `yB`;
`2.0*None` is a `TypeError`. The numbers of points are never 0 (at least 36 and 20, or the defaults). -/
noncomputable def pointParallel (phase : Phase) (r theta : ℝ) (nR nPhi : Int) (w : Workers) (even odd : ℂ) : CM ℝ :=
  match w with
  | .none => pointFromSums phase r theta nR nPhi 0 0
  | .running _ => pointFromSums phase r theta nR nPhi even odd
  | .released => do
    let _ ← radialIntegral phase r theta 0 nR
    let _ ← radialIntegral phase r theta (2 * Real.pi) nR
    CM.raise .typeError

/-- The loops of `get_kernel_parallel` and the normalisation, /repo/src/zernpy/zernpsf.py:734-750. -/
noncomputable def PsfObj.parallelLoops (fuel : Nat) (o : PsfObj) (z : ZernPol) (w : Workers) (even odd : Nat → Nat → ℂ) (normalize : Bool) : CM Grid := do
  let g ← fillRows (fun i j => pointParallel (singlePhase fuel z.obj o.alpha) (kernelDist o.kernelSize o.k o.NA o.pixelSize i j)
    (kernelTheta o.kernelSize i j) o.nR o.nPhi w (even i j) (odd i j)) o.kernelSize.toNat o.kernelSize.toNat 0
    (Grid.zeros o.kernelSize.toNat o.kernelSize.toNat)
  if normalize then CM.lift (normalizeKernel g) else pure g

/-- What a kernel calculation gives: an array, or an array of NaN (0 divided by 0), /repo/src/zernpy/zernpsf.py:749. -/
inductive MaybeNan where
  | finite (g : Grid)
  | nan

/-- `get_kernel_parallel`, /repo/src/zernpy/zernpsf.py:712-750: the result, the object and the coefficient tables of the main process after it.
`get_kernel_size` is called without its argument `NA` (line 730): a `TypeError`. Without a single polynomial nothing is calculated, and the
normalisation divides 0 by 0. If the calculation of a pixel fails, the stored kernel is what was calculated before (here: zeros). If a kernel
to be normalised is 0 everywhere, the quotients are NaN: not modelled here (the theorems do not speak about this case). -/
noncomputable def PsfObj.kernelParallel (fuel : Nat) (o : PsfObj) (w : Workers) (even odd : Nat → Nat → ℂ) (normalize : Bool) (s : CoefState) :
    Res MaybeNan × PsfObj × CoefState :=
  match o.zernpol with
  | some z =>
    if o.kernelSize < 3 then (.error .typeError, o, s)
    else
      match o.parallelLoops fuel z w even odd normalize s with
      | (.ok g, s') => (.ok (.finite g), { o with kernel := g }, s')
      | (.error e, s') => (.error e, { o with kernel := Grid.zeros o.kernelSize.toNat o.kernelSize.toNat }, s')
  | none =>
    let o := { o with kernelSize := 3, kernel := Grid.zeros 3 3 }
    (.ok (if normalize then .nan else .finite o.kernel), o, s)

end Verif.Model
