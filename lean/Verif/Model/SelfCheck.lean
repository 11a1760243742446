import Verif.Model.Methods
import Verif.Model.Numeric
import Verif.Model.Psf

/-!
# Model of the self-checks of the package

`compare_radial_calculations`, `compare_radial_derivatives`, `compare_recursive_coeffs_radials`, `compare_recursive_coeffs_radials_dr`, `check_high_orders_recursion`
(calc_zernike_pol.py) and `check_equal_coeffs` (find_pols_coeffs.py), in exact arithmetic. Printing is left out; a failed `assert` is the exception `otherError`.
-/

namespace Verif.Model

/-- `for n_azimuthals in range(0, order): m += 2; orders_list.append((m, n))`; the first number counts the remaining iterations,
/repo/src/zernpy/calculations/calc_zernike_pol.py:589-591,638-640,680-682,723-725,760-762. -/
def azimuthLoop : Nat → Int → Int → List (Int × Int)
  | 0, _, _ => []
  | k + 1, m, n => (m + 2, n) :: azimuthLoop k (m + 2) n

/-- `for order in range(start, stop): m = -order; n = order; orders_list.append((m, n)); ...`,
/repo/src/zernpy/calculations/calc_zernike_pol.py:586-591,635-640,677-682,720-725,757-762. -/
def checkedOrders (start stop : Int) : List (Int × Int) :=
  (pyRange start stop 1).flatMap fun order => (-order, order) :: azimuthLoop order.toNat (-order) order

/-- `test_r[i] = i/(n_points-1)` and `np.round(test_r, 4)`, /repo/src/zernpy/calculations/calc_zernike_pol.py:593-598,642-647,684-689,727-732,764-769. -/
noncomputable def checkedRadii (points : Nat) : Fin points → ℝ := fun i => npRound 4 ((i : ℝ) / ((points : ℝ) - 1))

/-- The loop over the orders that fills the rows of `diff`, /repo/src/zernpy/calculations/calc_zernike_pol.py:601-602,650-651,692-693,735-736,772-773. -/
def rowsLoop {points : Nat} (f : Int → Int → CM (Fin points → ℝ)) : List (Int × Int) → CM (List (Fin points → ℝ))
  | [] => pure []
  | (m, n) :: rest => do
    let row ← f m n
    let rows ← rowsLoop f rest
    pure (row :: rows)

/-- `diff = np.round(diff, decimals)`, /repo/src/zernpy/calculations/calc_zernike_pol.py:603,652,698,739,774. -/
noncomputable def roundRows {points : Nat} (decimals : Int) (rows : List (Fin points → ℝ)) : List (Fin points → ℝ) :=
  rows.map fun row i => npRound decimals (row i)

open Classical in
/-- `assert np.max(np.abs(diff)) < bound` and `return diff`; the array has at least one row, /repo/src/zernpy/calculations/calc_zernike_pol.py:604-607,653-656,699-702,740-743. -/
noncomputable def assertBelow {points : Nat} (bound : ℝ) (rows : List (Fin points → ℝ)) : Res (List (Fin points → ℝ)) :=
  if ∀ row ∈ rows, ∀ i, |row i| < bound then .ok rows else .error .otherError

open Classical in
/-- `assert np.max(np.abs(diff)) <= 1.0` and `return diff`, /repo/src/zernpy/calculations/calc_zernike_pol.py:775-777. -/
noncomputable def assertAtMostOne {points : Nat} (rows : List (Fin points → ℝ)) : Res (List (Fin points → ℝ)) :=
  if ∀ row ∈ rows, ∀ i, |row i| ≤ 1 then .ok rows else .error .otherError

/-- The argument `max_order` of the comparisons: an `int`, a `numpy` integer or a `float`, /repo/src/zernpy/calculations/calc_zernike_pol.py:582-584,631-633. -/
inductive CompareOrder where
  | int (k : Int)
  | npInt (k : Int)
  | float (x : ℝ)

open Classical in
/-- `if not isinstance(max_order, int) and max_order < 2: max_order = 2`, then `range(1, max_order)`, which raises a `TypeError` for a `float`,
/repo/src/zernpy/calculations/calc_zernike_pol.py:582-588,631-637. -/
noncomputable def CompareOrder.stop : CompareOrder → Res Int
  | .int k => .ok k
  | .npInt k => .ok (if k < 2 then 2 else k)
  | .float x => if x < 2 then .ok 2 else .error .typeError

/-- `compare_radial_calculations`, /repo/src/zernpy/calculations/calc_zernike_pol.py:563-609. -/
noncomputable def compareRadialCalculations (fuel : Nat) (maxOrder : CompareOrder) : CM (List (Fin 21 → ℝ)) := do
  let stop ← CM.lift maxOrder.stop
  let rows ← rowsLoop (fun m n => do
    let x ← CM.lift (radialPolynomial fuel m n (checkedRadii 21))
    let y ← CM.lift (radialPolynomialEq m n (checkedRadii 21))
    pure (x - y)) ((0, 0) :: checkedOrders 1 stop)
  CM.lift (assertBelow 1e-9 (roundRows 9 rows))

/-- `compare_radial_derivatives`, /repo/src/zernpy/calculations/calc_zernike_pol.py:612-658. -/
noncomputable def compareRadialDerivatives (fuel : Nat) (maxOrder : CompareOrder) : CM (List (Fin 21 → ℝ)) := do
  let stop ← CM.lift maxOrder.stop
  let rows ← rowsLoop (fun m n => do
    let x ← CM.lift (radialDerivative fuel m n (checkedRadii 21))
    let y ← CM.lift (radialDerivativeEq m n (checkedRadii 21))
    pure (x - y)) ((0, 0) :: checkedOrders 1 stop)
  CM.lift (assertBelow 1e-9 (roundRows 9 rows))

/-- `compare_recursive_coeffs_radials`, /repo/src/zernpy/calculations/calc_zernike_pol.py:661-701. -/
noncomputable def compareRecursiveCoeffsRadials (fuel : Nat) : CM (List (Fin 101 → ℝ)) := do
  let rows ← rowsLoop (fun m n => do
    let x ← CM.lift (radialPolynomialEq m n (checkedRadii 101))
    let y ← radialPolynomialCoeffs fuel m n (checkedRadii 101)
    pure (x - y)) (checkedOrders 15 (maxRadialOrderCoeffs + 2))
  CM.lift (assertBelow 2e-2 (roundRows 9 rows))

/-- `compare_recursive_coeffs_radials_dr`, /repo/src/zernpy/calculations/calc_zernike_pol.py:704-742. -/
noncomputable def compareRecursiveCoeffsRadialsDr (fuel : Nat) : CM (List (Fin 101 → ℝ)) := do
  let rows ← rowsLoop (fun m n => do
    let x ← CM.lift (radialDerivativeEq m n (checkedRadii 101))
    let y ← radialPolynomialCoeffsDr fuel m n (checkedRadii 101)
    pure (x - y)) (checkedOrders 15 (maxRadialOrderCoeffsDr + 2))
  CM.lift (assertBelow 5e-2 (roundRows 9 rows))

/-- `check_high_orders_recursion`, /repo/src/zernpy/calculations/calc_zernike_pol.py:745-776. -/
noncomputable def checkHighOrdersRecursion (fuel : Nat) : CM (List (Fin 51 → ℝ)) := do
  let rows ← rowsLoop (fun m n => radialPolynomialCoeffs fuel m n (checkedRadii 51)) (checkedOrders (maxRadialOrderCoeffs + 1) (maxRadialOrderCoeffs + 6))
  CM.lift (assertAtMostOne (roundRows 6 rows))

/-- The loop `for key, value in coeffs1.items(): if value != coeffs2[key]: result = False; break`, /repo/src/zernpy/calculations/find_pols_coeffs.py:377-380. -/
def equalLoop (d2 : List (Int × Int)) : List (Int × Int) → Res Bool
  | [] => .ok true
  | (key, value) :: rest =>
    match d2.lookup key with
    | none => .error .keyError
    | some w => if value ≠ w then .ok false else equalLoop d2 rest

/-- `check_equal_coeffs` on dictionaries as lists of items, /repo/src/zernpy/calculations/find_pols_coeffs.py:358-383. -/
def checkEqualCoeffs (d1 d2 : List (Int × Int)) : Res Bool :=
  if d1.length = d2.length then equalLoop d2 d1 else .ok false

end Verif.Model
