import Verif.Model.PsfNumba
import Verif.Model.FloatPsf

/-!
# Model of the accelerated PSF calculation in floating-point arithmetic, `calculations/calc_psfs_numba.py`

The compiled functions do the operations of the text, without contraction or reordering of the operations (`njit` without `fastmath`); powers, `exp` and the other
functions are those of the arithmetic, and the order of the additions of `numpy.sum` is left to the arithmetic.
-/

namespace Verif.Model

/-- `norm`, /repo/src/zernpy/calculations/calc_psfs_numba.py:59-62, in the arithmetic `F`. -/
def compNormFl (F : FloatArith) (m n : Int) : Fl F :=
  if m = 0 then ⟨F.sqrt ((n + 1 : Int) : Fl F).val⟩ else ⟨F.sqrt ((2 * (n + 1) : Int) : Fl F).val⟩

/-- `triangular`, /repo/src/zernpy/calculations/calc_psfs_numba.py:64-67, in the arithmetic `F`. -/
def compTriFl (F : FloatArith) (m : Int) (theta : Fl F) : Fl F :=
  if m ≥ 0 then ⟨F.cos ((m : Fl F) * theta).val⟩ else -⟨F.sin ((m : Fl F) * theta).val⟩

/-- `zernpol_value`, /repo/src/zernpy/calculations/calc_psfs_numba.py:38-158, in the arithmetic `F`. The last two branches return the radial part only. -/
def zernpolFl (F : FloatArith) (m n : Int) (r theta : Fl F) : Res (Fl F) :=
  match (compRadial m n : Option (Fl F → Fl F)) with
  | some f => .ok (compNormFl F m n * compTriFl F m theta * f r)
  | none =>
    if n > 7 ∧ |m| = n then .ok (r ^ n.toNat)
    else if n > 10 ∧ |m| = n - 2 then .ok ((n : Fl F) * r ^ n.toNat - ((n - 1 : Int) : Fl F) * r ^ (n - 2).toNat)
    else .error .unboundLocalError

/-- `alpha*zernpol_value(orders, p, phi)`, /repo/src/zernpy/calculations/calc_psfs_numba.py:193,433,436. -/
def fltCompPhase (F : PsfArith) (m n : Int) (alpha : ℝ) : FltPhase := fun p phi => do
  let v ← CM.lift (zernpolFl F.toFloatArith m n ⟨p⟩ ⟨phi⟩)
  pure (F.fl (alpha * v.val))

/-- The iterations of `pol_sums` after the first, /repo/src/zernpy/calculations/calc_psfs_numba.py:432-436. -/
def fltCompPolsRest (F : PsfArith) (p phi : ℝ) : List (ℝ × PolObj) → ℝ → CM ℝ
  | [], S => pure S
  | (a, o) :: rest, S => do
    let v ← fltCompPhase F o.m o.n a p phi
    fltCompPolsRest F p phi rest (F.fl (S + v))

/-- `pol_sums`, /repo/src/zernpy/calculations/calc_psfs_numba.py:411-437. -/
def fltCompPolsPhase (F : PsfArith) : List (ℝ × PolObj) → FltPhase
  | [] => fun _ _ => CM.raise .unboundLocalError
  | (a, o) :: rest => fun p phi => do
    let v ← fltCompPhase F o.m o.n a p phi
    fltCompPolsRest F p phi rest v

open Classical in
/-- `get_psf_kernel_comp` for one polynomial with a `float` amplitude, /repo/src/zernpy/calculations/calc_psfs_numba.py:273-406. The functions at lines 163-269 have
the same text as those of `calc_psfs.py`: `fltPsfPoint`. -/
noncomputable def fltPsfKernelComp (F : PsfArith) (o : PolObj) (coeff : ℝ) (q : KernelParams) : CM Grid :=
  if q.wavelength = 0 then CM.raise .zeroDivisionError
  else
    let size := makeOdd q.kernelSize
    let k := F.fl (F.fl (2 * F.pi) / q.wavelength)
    let alpha := F.fl (coeff / q.wavelength)
    if size < 0 then CM.raise .valueError
    else if compUnsupported o.m o.n then CM.raise .valueError
    else fltMakeKernel F size q.NA (fun i j =>
      fltPsfPoint F (fltCompPhase F o.m o.n alpha) (fltKernelDist F size k q.NA q.len2pixels i j) (fltKernelTheta F size i j) q.nR q.nPhi) q.normalize

open Classical in
/-- `get_psf_kernel_comp` for several polynomials, with the functions of /repo/src/zernpy/calculations/calc_psfs_numba.py:441-553. -/
noncomputable def fltPsfKernelCompPols (F : PsfArith) (l : List (ℝ × PolObj)) (q : KernelParams) : CM Grid :=
  if q.wavelength = 0 then CM.raise .zeroDivisionError
  else
    let size := makeOdd q.kernelSize
    let k := F.fl (F.fl (2 * F.pi) / q.wavelength)
    if size < 0 then CM.raise .valueError
    else if l.any fun x => compUnsupported x.2.m x.2.n then CM.raise .valueError
    else fltMakeKernel F size q.NA (fun i j =>
      fltPsfPoint F (fltCompPolsPhase F l) (fltKernelDist F size k q.NA q.len2pixels i j) (fltKernelTheta F size i j) q.nR q.nPhi) q.normalize

end Verif.Model
