import Verif.Model.ZernPol
import Verif.Model.Sums

/-!
# Model of `check_conformity`

In exact arithmetic. Printing, the measured times and the initialized objects' warnings are left out; a failed `assert` is the exception `otherError`.
-/

namespace Verif.Model

/-- `assert`, /repo/src/zernpy/zernikepol.py:1686. -/
def assertThat (b : Bool) : Res Unit := if b then .ok () else .error .otherError

/-- `assert (osa_i == … and noll_i == … and fringe_i == …)`, /repo/src/zernpy/zernikepol.py:1685-1687. -/
def assertIndices (z : ZernPol) (osa noll fringe : Int) : Res Unit :=
  let i := z.getIndices
  assertThat (i.2.1 == osa && i.2.2.1 == noll && i.2.2.2.num? == some fringe)

/-- The first part of `check_conformity`: initializations and indices, /repo/src/zernpy/zernikepol.py:1684-1711. -/
def conformityIndices : Res Unit := do
  let z ← zernPolInit [("m", .int (-2)), ("n", .int 2)]
  assertIndices z 3 5 6
  let z ← zernPolInit [("l", .int (-3)), ("n", .int 5)]
  assertIndices z 16 19 20
  assertThat (0 < (z.getPolynomialName true).length)
  let z ← zernPolInit [("azimuthal_order", .int (-1)), ("radial_order", .int 5)]
  assertIndices z 17 17 15
  assertThat (0 < z.getPolynomialName.length)
  assertThat (z.getMnOrders.1 == z.getIndices.1.1 && z.getIndices.1.2 == z.getMnOrders.2)
  let z ← zernPolInit [("osa_index", .int 12)]
  let p := z.getMnOrders
  assertThat (p.1 == 0 && p.2 == 4)
  assertThat ((getFringeIndexPy p.1 p.2).num? == some 9)
  assertThat (getNollIndex p.1 p.2 == 11)
  let o ← noll2osa (.int 10)
  assertThat (o.num? == some 9)
  let o ← noll2osa (.int 10)
  let f ← osa2fringe o
  assertThat (f.num? == some 10)

/-- `try: …; asserting_value = False` `except ValueError: asserting_value = True` `assert asserting_value`, /repo/src/zernpy/zernikepol.py:1713-1719,1726-1732,1733-1739. -/
def expectValueError {β : Type} (x : CM β) : CM Unit := fun s =>
  match x s with
  | (.ok _, s') => (.error .otherError, s')
  | (.error .valueError, s') => (.ok (), s')
  | (.error e, s') => (.error e, s')

open Classical in
/-- `assert abs(zp.polynomial_value(r, theta) - expected) < 1E-6`, /repo/src/zernpy/zernikepol.py:1722,1724. -/
noncomputable def assertValue (fuel : Nat) (z : ZernPol) (r theta expected : ℝ) : CM Unit := do
  let v ← polVal fuel z.obj (.num r) (.num theta)
  CM.lift (assertThat (decide (|v.item 0 - expected| < 1e-6)))

/-- The second part of `check_conformity`: values and refused arguments, /repo/src/zernpy/zernikepol.py:1712-1739. `float('d')` is a `ValueError`; the list of radii
becomes an array. -/
noncomputable def conformityValues (fuel : Nat) : CM Unit := do
  expectValueError (CM.lift (zernPolInit [("m", .int 2), ("n", .int (-2))]))
  let z ← CM.lift (zernPolInit [("m", .int 0), ("n", .int 2)])
  assertValue fuel z 0 Real.pi (-Real.sqrt 3)
  let z ← CM.lift (zernPolInit [("m", .int (-1)), ("n", .int 1)])
  assertValue fuel z 0.5 (Real.pi / 2) 1
  expectValueError (polVal fuel z.obj (.notFloat .valueError) (.seq [2] [1, 2]))
  expectValueError (polVal fuel z.obj (.seq [3] [0.1, 0.2, 1 + 1e-9]) (.num Real.pi))

/-- `[ZernPol(osa=2), …]`, /repo/src/zernpy/zernikepol.py:1741-1742. -/
def conformityPols : List Int → Res (List ZernPol)
  | [] => .ok []
  | i :: rest => do
    let z ← zernPolInit [("osa", .int i)]
    let l ← conformityPols rest
    pure (z :: l)

/-- `ampls`, /repo/src/zernpy/zernikepol.py:1743. -/
noncomputable def conformityAmpls : List ℝ := [-0.85, 0.85, 0.24, -0.37, 1.0, 0.1, -1.0, -0.05, 1.1, 0.41]

/-- The third part of `check_conformity`: the two ways to sum polynomials; their results are not compared, only the times,
/repo/src/zernpy/zernikepol.py:1740-1749. The results are returned here (in the code they are dropped). -/
noncomputable def conformitySums (fuel : Nat) : CM (SumOut × SumOut) := do
  let zs ← CM.lift (conformityPols [2, 4, 7, 10, 15, 3, 9, 12, 16, 19])
  let radii ← CM.lift (npArange (1 + 0.001) 0.001)
  let thetas ← CM.lift (npArange (2 * Real.pi + Real.pi / 180) (Real.pi / 180))
  let ps := zs.map fun z => PolItem.pol z.obj
  let a ← sumZernikes fuel conformityAmpls ps (.arr [radii.length] radii) (.arr [thetas.length] thetas) true
  let b ← sumZernikesMeshgrid fuel conformityAmpls ps (.arr [radii.length] radii) (.arr [thetas.length] thetas)
  pure (a, b)

/-- `check_conformity`, /repo/src/zernpy/zernikepol.py:1675-1750, with the two sums it calculates as the result. -/
noncomputable def checkConformity (fuel : Nat) : CM (SumOut × SumOut) := do
  CM.lift conformityIndices
  conformityValues fuel
  conformitySums fuel

end Verif.Model
