import Verif.Model.Threads
import Verif.Model.FloatSums

/-!
# Model of threads that evaluate in floating-point arithmetic

The functions of Verif.Model.FloatPsf and Verif.Model.FloatSums as programs of atomic actions: the shared state is used only in `polynomial_value`,
everything else works on objects of one thread. Theorem `float_threads_refine` says that these programs, run without other threads, are those functions.
-/

namespace Verif.Model

/-- `polynomial_value`, for two `float`s in the accepted range, /repo/src/zernpy/zernikepol.py:408-428, in the arithmetic `F`. -/
noncomputable def polynomialFlT (F : FloatArith) (fuel : Nat) (exact : Bool) (m n : Int) (r theta : Fl F) : Prog (Fl F) :=
  if exact ∧ n > maxRadialOrderCoeffs then pure 0
  else do
    let v ← radialValueT fuel exact m n r
    pure (normalizationFl F m n * triangularFl F m theta * v)

/-- The aberration phase at the pupil point with the radius `p` and the angle `phi`, /repo/src/zernpy/calculations/calc_psfs.py:102,/repo/src/zernpy/calculations/calc_psfs.py:524-528. -/
abbrev FltPhaseT := ℝ → ℝ → Prog ℝ

/-- `alpha*zernike_pol.polynomial_value(p, phi)`, /repo/src/zernpy/calculations/calc_psfs.py:102. -/
noncomputable def fltSinglePhaseT (F : PsfArith) (fuel : Nat) (o : PolObj) (alpha : ℝ) : FltPhaseT := fun p phi => do
  let v ← polynomialFlT F.toFloatArith fuel false o.m o.n ⟨p⟩ ⟨phi⟩
  pure (F.fl (alpha * v.val))

/-- The iterations of the loop after the first, /repo/src/zernpy/calculations/calc_psfs.py:524-528. -/
noncomputable def fltPolsRestT (F : PsfArith) (fuel : Nat) (p phi : ℝ) : List (ℝ × PolObj) → ℝ → Prog ℝ
  | [], S => pure S
  | (a, o) :: rest, S => do
    let v ← fltSinglePhaseT F fuel o a p phi
    fltPolsRestT F fuel p phi rest (F.fl (S + v))

/-- The sum over the polynomials, /repo/src/zernpy/calculations/calc_psfs.py:524-528. -/
noncomputable def fltPolsPhaseT (F : PsfArith) (fuel : Nat) : List (ℝ × PolObj) → FltPhaseT
  | [] => fun _ _ => Prog.lift (.error .unboundLocalError)
  | (a, o) :: rest => fun p phi => do
    let v ← fltSinglePhaseT F fuel o a p phi
    fltPolsRestT F fuel p phi rest v

/-- `diffraction_integral_r` at one point, /repo/src/zernpy/calculations/calc_psfs.py:72-103,492-530. -/
def fltDiffractionT (F : PsfArith) (ph : FltPhaseT) (phi p theta r : ℝ) : Prog CFl := do
  let v ← ph p phi
  pure (fltWave F v r theta phi p)

/-- `diffraction_integral_r` on an array of radii, /repo/src/zernpy/calculations/calc_psfs.py:72-103,492-530. -/
def fltWavesT (F : PsfArith) (ph : FltPhaseT) (phi theta r : ℝ) : List ℝ → Prog (List CFl)
  | [] => pure []
  | p :: rest => do
    let w ← fltDiffractionT F ph phi p theta r
    let ws ← fltWavesT F ph phi theta r rest
    pure (w :: ws)

/-- `radial_integral` (= `radial_integral_args`, `radial_integral_pols`), /repo/src/zernpy/calculations/calc_psfs.py:106-136,139-171,533-565. -/
noncomputable def fltRadialIntegralT (F : PsfArith) (ph : FltPhaseT) (r theta phi : ℝ) (nR : Int) : Prog CFl :=
  if nR = 0 then Prog.lift (.error .zeroDivisionError)
  else do
    let h := radialStep F.toFloatArith nR
    let fa ← fltDiffractionT F ph phi 0 theta r
    let fb ← fltDiffractionT F ph phi 1 theta r
    let ws ← fltWavesT F ph phi theta r (radialNodes F.toFloatArith nR)
    let s := fltSum F ws
    pure ⟨fltRadialPart F h s.re fa.re fb.re, fltRadialPart F h s.im fa.im fb.im⟩

/-- `[radial_integral(..., i*h_phi, ...) for i in ...]`, /repo/src/zernpy/calculations/calc_psfs.py:266-269,595-598. -/
noncomputable def fltAnglesT (F : PsfArith) (ph : FltPhaseT) (r theta h : ℝ) (nR : Int) : List Int → Prog (List CFl)
  | [] => pure []
  | i :: rest => do
    let v ← fltRadialIntegralT F ph r theta (F.fl ((i : ℝ) * h)) nR
    let vs ← fltAnglesT F ph r theta h nR rest
    pure (v :: vs)

/-- `get_psf_point_r_parallel` without `joblib` (= `get_psf_point_r`, `get_psf_point_r_pols`),
/repo/src/zernpy/calculations/calc_psfs.py:193-227,231-281,568-603. -/
noncomputable def fltPsfPointT (F : PsfArith) (ph : FltPhaseT) (r theta : ℝ) (nR nPhi : Int) : Prog ℝ :=
  if nPhi = 0 then Prog.lift (.error .zeroDivisionError)
  else do
    let h := F.fl (F.fl (2 * F.pi) / (nPhi : ℝ))
    let evens ← fltAnglesT F ph r theta h nR (pyRange 2 (nPhi - 2) 2)
    let odds ← fltAnglesT F ph r theta h nR (pyRange 1 (nPhi - 1) 2)
    let yA ← fltRadialIntegralT F ph r theta 0 nR
    let yB ← fltRadialIntegralT F ph r theta (F.fl (2 * F.pi)) nR
    let even := fltSum F evens
    let odd := fltSum F odds
    let c := F.fl (h / 3)
    let re := fltAngularPart F c yA.re yB.re even.re odd.re
    let im := fltAngularPart F c yA.im yB.im even.im odd.im
    pure (F.fl (F.sq (F.hypot re im) * F.fl (1 / F.fl (F.pi * F.pi))))

/-- The loop over the columns of row `i`. The first number counts the remaining columns, /repo/src/zernpy/calculations/calc_psfs.py:428-447,/repo/src/zernpy/calculations/calc_psfs.py:676-692. -/
noncomputable def fillRowT (f : Nat → Nat → Prog ℝ) (i : Nat) : Nat → Nat → Grid → Prog Grid
  | 0, _, S => pure S
  | k + 1, j, S => do
    let v ← f i j
    fillRowT f i k (j + 1) { S with entry := fun a b => if a = i ∧ b = j then v else S.entry a b }

/-- The loop over the rows of the kernel, /repo/src/zernpy/calculations/calc_psfs.py:428-447,/repo/src/zernpy/calculations/calc_psfs.py:676-692. -/
noncomputable def fillRowsT (f : Nat → Nat → Prog ℝ) (cols : Nat) : Nat → Nat → Grid → Prog Grid
  | 0, _, S => pure S
  | k + 1, i, S => do
    let S' ← fillRowT f i cols 0 S
    fillRowsT f cols k (i + 1) S'

open Classical in
/-- The kernel from the values of its pixels, /repo/src/zernpy/calculations/calc_psfs.py:401-469,652-695. -/
noncomputable def fltMakeKernelT (F : PsfArith) (size : Int) (NA : ℝ) (value : Nat → Nat → Prog ℝ) (normalize : Bool) : Prog Grid :=
  if size < 0 then Prog.lift (.error .valueError)
  else if NA = 0 then Prog.lift (.error .zeroDivisionError)
  else do
    let g ← fillRowsT value size.toNat size.toNat 0 (Grid.zeros size.toNat size.toNat)
    if normalize then Prog.lift (fltNormalize F g) else pure g

open Classical in
/-- `get_psf_kernel` for a given kernel size and no Airy pattern, /repo/src/zernpy/calculations/calc_psfs.py:338-488. -/
noncomputable def fltPsfKernelT (F : PsfArith) (fuel : Nat) (o : PolObj) (coeff : ℝ) (q : KernelParams) : Prog Grid :=
  if q.wavelength = 0 then Prog.lift (.error .zeroDivisionError)
  else
    let alpha := F.fl (coeff / q.wavelength)
    let k := F.fl (F.fl (2 * F.pi) / q.wavelength)
    let size := makeOdd q.kernelSize
    fltMakeKernelT F size q.NA (fun i j =>
      fltPsfPointT F (fltSinglePhaseT F fuel o alpha) (fltKernelDist F size k q.NA q.len2pixels i j) (fltKernelTheta F size i j) q.nR q.nPhi) q.normalize

open Classical in
/-- `get_psf_kernel_zerns`, /repo/src/zernpy/calculations/calc_psfs.py:606-705, on the amplitudes zipped with the polynomials. -/
noncomputable def fltPsfKernelZernsT (F : PsfArith) (fuel : Nat) (l : List (ℝ × PolObj)) (q : KernelParams) : Prog Grid :=
  if q.wavelength = 0 then Prog.lift (.error .zeroDivisionError)
  else
    let k := F.fl (F.fl (2 * F.pi) / q.wavelength)
    let size := makeOdd q.kernelSize
    fltMakeKernelT F size q.NA (fun i j =>
      fltPsfPointT F (fltPolsPhaseT F fuel l) (fltKernelDist F size k q.NA q.len2pixels i j) (fltKernelTheta F size i j) q.nR q.nPhi) q.normalize

open Classical in
/-- The loop for the polynomials after the first one, /repo/src/zernpy/zernikepol.py:962-969, in the arithmetic `F`. -/
noncomputable def fltSumRestT (F : PsfArith) (fuel : Nat) (r theta : ℝ) : List (ℝ × PolObj) → ℝ → Prog ℝ
  | [], S => pure S
  | (c, o) :: rest, S =>
    if |c| > 0 then do
      let v ← fltSinglePhaseT F fuel o c r theta
      fltSumRestT F fuel r theta rest (F.fl (S + v))
    else fltSumRestT F fuel r theta rest S

/-- `sum_zernikes` at a point, /repo/src/zernpy/zernikepol.py:955-969, in the arithmetic `F`. -/
noncomputable def fltSumPointT (F : PsfArith) (fuel : Nat) (r theta : ℝ) : List (ℝ × PolObj) → Prog ℝ
  | [] => Prog.lift (.error .valueError)
  | (c, o) :: rest => do
    let v ← fltSinglePhaseT F fuel o c r theta
    fltSumRestT F fuel r theta rest v

/-- `coefficient*polynomial_value(r, theta)` for the points of a list, /repo/src/zernpy/zernikepol.py:915,984,987. -/
noncomputable def fltValuesT (F : PsfArith) (fuel : Nat) (c : ℝ) (o : PolObj) : List (ℝ × ℝ) → Prog (List ℝ)
  | [] => pure []
  | (r, t) :: rest => do
    let v ← fltSinglePhaseT F fuel o c r t
    let vs ← fltValuesT F fuel c o rest
    pure (v :: vs)

/-- `for j in range(r_size): S[j, :] += coefficient*polynomials[i].polynomial_value(r[j], theta)[:]`, /repo/src/zernpy/zernikepol.py:983-984.
The first number counts the remaining iterations. -/
noncomputable def fltAddRowsT (F : PsfArith) (fuel : Nat) (c : ℝ) (o : PolObj) (r theta : List ℝ) : Nat → Nat → Grid → Prog Grid
  | 0, _, S => pure S
  | k + 1, j, S => do
    let v ← fltValuesT F fuel c o (theta.map fun t => (r.getD j 0, t))
    fltAddRowsT F fuel c o r theta k (j + 1) { S with entry := fun a b => if a = j then F.fl (S.entry a b + v.getD b 0) else S.entry a b }

/-- `for j in range(theta_size): S[:, j] += coefficient*polynomials[i].polynomial_value(r, theta[j])[:]`, /repo/src/zernpy/zernikepol.py:986-987. -/
noncomputable def fltAddColsT (F : PsfArith) (fuel : Nat) (c : ℝ) (o : PolObj) (r theta : List ℝ) : Nat → Nat → Grid → Prog Grid
  | 0, _, S => pure S
  | k + 1, j, S => do
    let v ← fltValuesT F fuel c o (r.map fun x => (x, theta.getD j 0))
    fltAddColsT F fuel c o r theta k (j + 1) { S with entry := fun a b => if b = j then F.fl (S.entry a b + v.getD a 0) else S.entry a b }

open Classical in
/-- The loop over the polynomials for a surface, /repo/src/zernpy/zernikepol.py:978-987, in the arithmetic `F`. -/
noncomputable def fltSurfaceLoopT (F : PsfArith) (fuel : Nat) (r theta : List ℝ) : List (ℝ × PolObj) → Grid → Prog Grid
  | [], S => pure S
  | (c, o) :: rest, S =>
    if |c| > 0 then
      if theta.length > r.length then do
        let S' ← fltAddRowsT F fuel c o r theta r.length 0 S
        fltSurfaceLoopT F fuel r theta rest S'
      else do
        let S' ← fltAddColsT F fuel c o r theta theta.length 0 S
        fltSurfaceLoopT F fuel r theta rest S'
    else fltSurfaceLoopT F fuel r theta rest S

/-- `sum_zernikes(..., get_surface=True)` on two vectors, /repo/src/zernpy/zernikepol.py:970-988, in the arithmetic `F`. -/
noncomputable def fltSumSurfaceT (F : PsfArith) (fuel : Nat) (r theta : List ℝ) (l : List (ℝ × PolObj)) : Prog Grid :=
  if l.length = 0 then Prog.lift (.error .valueError)
  else fltSurfaceLoopT F fuel r theta l (Grid.zeros r.length theta.length)

open Classical in
/-- The loop of `_sum_zernikes_meshgrid`, /repo/src/zernpy/zernikepol.py:912-915, in the arithmetic `F`. The values on the mesh are computed row by row. -/
noncomputable def fltMeshLoopT (F : PsfArith) (fuel : Nat) (r theta : List ℝ) : List (ℝ × PolObj) → Grid → Prog Grid
  | [], S => pure S
  | (c, o) :: rest, S =>
    if |c| > 0 then do
      let S' ← fltAddRowsT F fuel c o r theta r.length 0 S
      fltMeshLoopT F fuel r theta rest S'
    else fltMeshLoopT F fuel r theta rest S

/-- `_sum_zernikes_meshgrid` on two vectors, /repo/src/zernpy/zernikepol.py:901-917, in the arithmetic `F`. -/
noncomputable def fltSumMeshT (F : PsfArith) (fuel : Nat) (r theta : List ℝ) (l : List (ℝ × PolObj)) : Prog Grid :=
  fltMeshLoopT F fuel r theta l (Grid.zeros r.length theta.length)

/-- What a call in floating-point arithmetic returns: a number, or an array with two dimensions, /repo/src/zernpy/zernikepol.py:352-585,901-988,/repo/src/zernpy/calculations/calc_psfs.py:338-705. -/
inductive FltOut where
  | num (x : ℝ)
  | grid (g : Grid)

/-- A call made by a thread in floating-point arithmetic: the methods of a polynomial with the orders `m`, `n`, the sums of polynomials at a point, on two vectors and on a mesh,
the PSF kernels, /repo/src/zernpy/zernikepol.py:352-585,901-988,/repo/src/zernpy/calculations/calc_psfs.py:338-705. -/
inductive FltCall where
  | radial (m n : Int) (r : ℝ) (exact : Bool)
  | radialDr (m n : Int) (r : ℝ) (exact : Bool)
  | value (m n : Int) (r theta : ℝ) (exact : Bool)
  | sumPoint (l : List (ℝ × PolObj)) (r theta : ℝ)
  | sumSurface (l : List (ℝ × PolObj)) (r theta : List ℝ)
  | sumMesh (l : List (ℝ × PolObj)) (r theta : List ℝ)
  | kernel (o : PolObj) (coeff : ℝ) (q : KernelParams)
  | kernelZerns (l : List (ℝ × PolObj)) (q : KernelParams)

/-- The program of a call; `fuel` is the recursion limit of the thread, /repo/src/zernpy/zernikepol.py:352-585,901-988,/repo/src/zernpy/calculations/calc_psfs.py:338-705. -/
noncomputable def FltCall.prog (F : PsfArith) (fuel : Nat) : FltCall → Prog FltOut
  | .radial m n r exact => do
    let v ← radialValueT fuel exact m n (⟨r⟩ : Fl F.toFloatArith)
    pure (.num v.val)
  | .radialDr m n r exact => do
    let v ← radialDrValueT fuel exact m n (⟨r⟩ : Fl F.toFloatArith)
    pure (.num v.val)
  | .value m n r theta exact => do
    let v ← polynomialFlT F.toFloatArith fuel exact m n ⟨r⟩ ⟨theta⟩
    pure (.num v.val)
  | .sumPoint l r theta => do
    let v ← fltSumPointT F fuel r theta l
    pure (.num v)
  | .sumSurface l r theta => do
    let g ← fltSumSurfaceT F fuel r theta l
    pure (.grid g)
  | .sumMesh l r theta => do
    let g ← fltSumMeshT F fuel r theta l
    pure (.grid g)
  | .kernel o coeff q => do
    let g ← fltPsfKernelT F fuel o coeff q
    pure (.grid g)
  | .kernelZerns l q => do
    let g ← fltPsfKernelZernsT F fuel l q
    pure (.grid g)

/-- A thread that makes calls one after the other and collects their results and exceptions, calls of the functions at
/repo/src/zernpy/zernikepol.py:352-585,901-988,/repo/src/zernpy/calculations/calc_psfs.py:338-705. -/
noncomputable def fltThreadProg (F : PsfArith) (fuel : Nat) : List FltCall → Prog (List (Res FltOut))
  | [] => pure []
  | c :: rest => do
    let x ← (c.prog F fuel).attempt
    let xs ← fltThreadProg F fuel rest
    pure (x :: xs)

end Verif.Model
