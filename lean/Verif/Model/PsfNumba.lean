import Verif.Model.Psf

/-!
# Model of the accelerated PSF calculation, `calculations/calc_psfs_numba.py`

The functions compiled by `numba` are read as Python on real numbers; the table of the radial polynomials is written for any type of numbers
(in floating-point arithmetic: Verif.Model.FloatNumba).
-/

namespace Verif.Model

/-- The explicit radial polynomials, /repo/src/zernpy/calculations/calc_psfs_numba.py:69-151. -/
def compRadial {α : Type} [One α] [Add α] [Sub α] [Mul α] [NatCast α] [Pow α ℕ] (m n : Int) : Option (α → α) :=
  if (m = 0 ∧ n = 0) then some fun r => (r ^ 0)
  else if (m = -1 ∧ n = 1) ∨ (m = 1 ∧ n = 1) then some fun r => (r)
  else if (m = -2 ∧ n = 2) ∨ (m = 2 ∧ n = 2) then some fun r => (r ^ 2)
  else if (m = 0 ∧ n = 2) then some fun r => (2 * r ^ 2 - 1)
  else if (m = -3 ∧ n = 3) ∨ (m = 3 ∧ n = 3) then some fun r => (r ^ 3)
  else if (m = -1 ∧ n = 3) ∨ (m = 1 ∧ n = 3) then some fun r => (3 * r ^ 3 - 2 * r)
  else if (m = -4 ∧ n = 4) ∨ (m = 4 ∧ n = 4) then some fun r => (r ^ 4)
  else if (m = -2 ∧ n = 4) ∨ (m = 2 ∧ n = 4) then some fun r => (4 * r ^ 4 - 3 * r ^ 2)
  else if (m = 0 ∧ n = 4) then some fun r => (6 * r ^ 4 - 6 * r ^ 2 + 1)
  else if (m = -5 ∧ n = 5) ∨ (m = 5 ∧ n = 5) then some fun r => (r ^ 5)
  else if (m = -3 ∧ n = 5) ∨ (m = 3 ∧ n = 5) then some fun r => (5 * r ^ 5 - 4 * r ^ 3)
  else if (m = -1 ∧ n = 5) ∨ (m = 1 ∧ n = 5) then some fun r => (10 * r ^ 5 - 12 * r ^ 3 + 3 * r)
  else if (m = -6 ∧ n = 6) ∨ (m = 6 ∧ n = 6) then some fun r => (r ^ 6)
  else if (m = -4 ∧ n = 6) ∨ (m = 4 ∧ n = 6) then some fun r => (6 * r ^ 6 - 5 * r ^ 4)
  else if (m = -2 ∧ n = 6) ∨ (m = 2 ∧ n = 6) then some fun r => (15 * r ^ 6 - 20 * r ^ 4 + 6 * r ^ 2)
  else if (m = 0 ∧ n = 6) then some fun r => (20 * r ^ 6 - 30 * r ^ 4 + 12 * r ^ 2 - 1)
  else if (m = -7 ∧ n = 7) ∨ (m = 7 ∧ n = 7) then some fun r => (r ^ 7)
  else if (m = -5 ∧ n = 7) ∨ (m = 5 ∧ n = 7) then some fun r => (7 * r ^ 7 - 6 * r ^ 5)
  else if (m = -3 ∧ n = 7) ∨ (m = 3 ∧ n = 7) then some fun r => (21 * r ^ 7 - 30 * r ^ 5 + 10 * r ^ 3)
  else if (m = -1 ∧ n = 7) ∨ (m = 1 ∧ n = 7) then some fun r => (35 * r ^ 7 - 60 * r ^ 5 + 30 * r ^ 3 - 4 * r)
  else if (m = -6 ∧ n = 8) ∨ (m = 6 ∧ n = 8) then some fun r => (8 * r ^ 8 - 7 * r ^ 6)
  else if (m = -4 ∧ n = 8) ∨ (m = 4 ∧ n = 8) then some fun r => (28 * r ^ 8 - 42 * r ^ 6 + 15 * r ^ 4)
  else if (m = -2 ∧ n = 8) ∨ (m = 2 ∧ n = 8) then some fun r => (56 * r ^ 8 - 105 * r ^ 6 + 60 * r ^ 4 - 10 * r ^ 2)
  else if (m = 0 ∧ n = 8) then some fun r => (70 * r ^ 8 - 140 * r ^ 6 + 90 * r ^ 4 - 20 * r ^ 2 + 1)
  else if (m = -7 ∧ n = 9) ∨ (m = 7 ∧ n = 9) then some fun r => (9 * r ^ 9 - 8 * r ^ 7)
  else if (m = -5 ∧ n = 9) ∨ (m = 5 ∧ n = 9) then some fun r => (36 * r ^ 9 - 56 * r ^ 7 + 21 * r ^ 5)
  else if (m = -3 ∧ n = 9) ∨ (m = 3 ∧ n = 9) then some fun r => (84 * r ^ 9 - 168 * r ^ 7 + 105 * r ^ 5 - 20 * r ^ 3)
  else if (m = -1 ∧ n = 9) ∨ (m = 1 ∧ n = 9) then some fun r => (126 * r ^ 9 - 280 * r ^ 7 + 210 * r ^ 5 - 60 * r ^ 3 + 5 * r)
  else if (m = -8 ∧ n = 10) ∨ (m = 8 ∧ n = 10) then some fun r => (10 * r ^ 10 - 9 * r ^ 8)
  else if (m = -6 ∧ n = 10) ∨ (m = 6 ∧ n = 10) then some fun r => (45 * r ^ 10 - 72 * r ^ 8 + 28 * r ^ 6)
  else if (m = -4 ∧ n = 10) ∨ (m = 4 ∧ n = 10) then some fun r => (120 * r ^ 10 - 252 * r ^ 8 + 168 * r ^ 6 - 35 * r ^ 4)
  else if (m = -2 ∧ n = 10) ∨ (m = 2 ∧ n = 10) then some fun r => (210 * r ^ 10 - 504 * r ^ 8 + 420 * r ^ 6 - 140 * r ^ 4 + 15 * r ^ 2)
  else if (m = 0 ∧ n = 10) then some fun r => (252 * r ^ 10 - 630 * r ^ 8 + 560 * r ^ 6 - 210 * r ^ 4 + 30 * r ^ 2 - 1)
  else none

/-- `norm`, /repo/src/zernpy/calculations/calc_psfs_numba.py:59-62. -/
noncomputable def compNorm (m n : Int) : ℝ := if m = 0 then Real.sqrt ((n : ℝ) + 1) else Real.sqrt (2 * ((n : ℝ) + 1))

/-- `triangular`, /repo/src/zernpy/calculations/calc_psfs_numba.py:64-67. -/
noncomputable def compTri (m : Int) (theta : ℝ) : ℝ := if m ≥ 0 then Real.cos (m * theta) else -Real.sin (m * theta)

/-- `zernpol_value` on orders, as a function of radius and angle (elementwise on arrays),
/repo/src/zernpy/calculations/calc_psfs_numba.py:38-158. The last two branches return the radial part only. Orders without a branch leave
`radial` undefined. -/
noncomputable def zernpolValue (m n : Int) : Res (ℝ → ℝ → ℝ) :=
  match compRadial m n with
  | some f => .ok fun r theta => compNorm m n * compTri m theta * f r
  | none =>
    if n > 7 ∧ |m| = n then .ok fun r _ => r ^ n.toNat
    else if n > 10 ∧ |m| = n - 2 then .ok fun r _ => (n : ℝ) * r ^ n.toNat - ((n - 1 : ℤ) : ℝ) * r ^ (n - 2).toNat
    else .error .unboundLocalError

/-- A function of radius and angle on a number or an array of radii, /repo/src/zernpy/calculations/calc_psfs_numba.py:57-158. -/
def applyArg (f : ℝ → ℝ → ℝ) (p : Arg) (phi : ℝ) : Num :=
  match p with
  | .num x => .scalar (f x phi)
  | .arr sh d => .array sh (d.map fun x => f x phi)
  | _ => .scalar 0

/-- `alpha*zernpol_value(orders, p, phi)`, /repo/src/zernpy/calculations/calc_psfs_numba.py:193. -/
noncomputable def compPhase (m n : Int) (alpha : ℝ) : Phase := fun p phi => do
  let f ← CM.lift (zernpolValue m n)
  pure ((applyArg f p phi).smul alpha)

/-- The iterations of `pol_sums` after the first, /repo/src/zernpy/calculations/calc_psfs_numba.py:432-436. -/
noncomputable def compPolsRest (p : Arg) (phi : ℝ) : List (ℝ × Int × Int) → Num → CM Num
  | [], S => pure S
  | (a, m, n) :: rest, S => do
    let f ← CM.lift (zernpolValue m n)
    compPolsRest p phi rest (S.add ((applyArg f p phi).smul a))

/-- `pol_sums`, /repo/src/zernpy/calculations/calc_psfs_numba.py:411-437. -/
noncomputable def compPolsPhase : List (ℝ × Int × Int) → Phase
  | [] => fun _ _ => CM.raise .unboundLocalError
  | (a, m, n) :: rest => fun p phi => do
    let f ← CM.lift (zernpolValue m n)
    compPolsRest p phi rest ((applyArg f p phi).smul a)

/-- `n > 10 and (abs(m) != n or abs(m) != n-2)`, /repo/src/zernpy/calculations/calc_psfs_numba.py:338,346. -/
def compUnsupported (m n : Int) : Bool := decide (n > 10 ∧ (|m| ≠ n ∨ |m| ≠ n - 2))

open Classical in
/-- `get_psf_kernel_comp` for one polynomial with a `float` amplitude, /repo/src/zernpy/calculations/calc_psfs_numba.py:273-406. The
functions `diffraction_integral_r_comp`, `radial_integral_comp`, `get_psf_point_r_comp` (lines 163-269) have the same text as those of
`calc_psfs.py`: `psfPoint`. -/
noncomputable def getPsfKernelComp (o : PolObj) (coeff : ℝ) (q : KernelParams) : CM Grid :=
  let size := makeOdd q.kernelSize
  let k := 2 * Real.pi / q.wavelength
  let alpha := coeff / q.wavelength
  if q.wavelength = 0 then CM.raise .zeroDivisionError
  else if size < 0 then CM.raise .valueError
  else if compUnsupported o.m o.n then CM.raise .valueError
  else makeKernel size q.NA (fun i j =>
    psfPoint (compPhase o.m o.n alpha) (kernelDist size k q.NA q.len2pixels i j) (kernelTheta size i j) q.nR q.nPhi) q.normalize

open Classical in
/-- `get_psf_kernel_comp` for several polynomials, with the functions of /repo/src/zernpy/calculations/calc_psfs_numba.py:441-553. -/
noncomputable def getPsfKernelCompPols (l : List (ℝ × PolObj)) (q : KernelParams) : CM Grid :=
  let size := makeOdd q.kernelSize
  let k := 2 * Real.pi / q.wavelength
  if q.wavelength = 0 then CM.raise .zeroDivisionError
  else if size < 0 then CM.raise .valueError
  else if l.any fun x => compUnsupported x.2.m x.2.n then CM.raise .valueError
  else makeKernel size q.NA (fun i j =>
    psfPoint (compPolsPhase (l.map fun x => (x.1, x.2.m, x.2.n))) (kernelDist size k q.NA q.len2pixels i j) (kernelTheta size i j)
      q.nR q.nPhi) q.normalize

end Verif.Model
