import Verif.Model.SelfCheck
import Verif.Model.History

/-!
# Model of the test mode of `find_coeffs_orders` and `find_coeffs_orders_dr` (`use_test_dict=True`) and of `test_coeffs_calc` and `test_coeffs_dr_calc`

The test mode runs the same recursion on a table of its own (/repo/src/zernpy/calculations/find_pols_coeffs.py:244-281), so that it is `findCoeffs` (`findCoeffsDr`) on a state of its own.
Simplification: the two modes have different keys in the one `lru_cache` and compete only for its 128 places; here each mode has its own cache, from which entries may
disappear at any time between the calls. The flag of the model tells whether `use_test_dict` was given by name or by position.
-/

namespace Verif.Model

/-- `initial_coefficients_test`, /repo/src/zernpy/calculations/find_pols_coeffs.py:58-67. -/
def testVals : Table :=
  [((-3, 7), mk [(7, 21), (5, -30), (3, 10)] 7),
   ((3, 7), mk [(7, 21), (5, -30), (3, 10)] 7),
   ((-1, 7), mk [(7, 35), (5, -60), (3, 30), (1, -4)] 7),
   ((1, 7), mk [(7, 35), (5, -60), (3, 30), (1, -4)] 7),
   ((-4, 8), mk [(8, 28), (6, -42), (4, 15)] 8),
   ((4, 8), mk [(8, 28), (6, -42), (4, 15)] 8),
   ((-2, 8), mk [(8, 56), (6, -105), (4, 60), (2, -10)] 8),
   ((2, 8), mk [(8, 56), (6, -105), (4, 60), (2, -10)] 8),
   ((0, 8), mk [(8, 70), (6, -140), (4, 90), (2, -20), (0, 1)] 8)]

/-- `initial_coefficients_test_dr`, /repo/src/zernpy/calculations/find_pols_coeffs.py:87-96. -/
def testDrs : Table :=
  [((-3, 7), mk [(6, 147), (4, -150), (2, 30)] 6),
   ((3, 7), mk [(6, 147), (4, -150), (2, 30)] 6),
   ((-1, 7), mk [(6, 245), (4, -300), (2, 90), (0, -4)] 6),
   ((1, 7), mk [(6, 245), (4, -300), (2, 90), (0, -4)] 6),
   ((-4, 8), mk [(7, 224), (5, -252), (3, 60)] 7),
   ((4, 8), mk [(7, 224), (5, -252), (3, 60)] 7),
   ((-2, 8), mk [(7, 448), (5, -630), (3, 240), (1, -20)] 7),
   ((2, 8), mk [(7, 448), (5, -630), (3, 240), (1, -20)] 7),
   ((0, 8), mk [(7, 560), (5, -840), (3, 360), (1, -40)] 7)]

/-- The state of the test mode after importing the package, /repo/src/zernpy/calculations/find_pols_coeffs.py:58-96. -/
def testState : CoefState := { vals := testVals, drs := testDrs, lru := [], lruDr := [] }

/-- How the state of the test mode changes: calls of `find_coeffs_orders` and `find_coeffs_orders_dr` with `use_test_dict=True`, any orders and any recursion limit, and
entries of the caches that are evicted, /repo/src/zernpy/calculations/find_pols_coeffs.py:221-355. -/
inductive TestStep : CoefState → CoefState → Prop
  | find (fuel : Nat) (byName : Bool) (m n : Int) (s : CoefState) : TestStep s (findCoeffs fuel byName m n s).2
  | findDr (fuel : Nat) (byName : Bool) (m n : Int) (s : CoefState) : TestStep s (findCoeffsDr fuel byName m n s).2
  | evict (s : CoefState) (l l' : Lru) (h : l.Sublist s.lru) (h' : l'.Sublist s.lruDr) : TestStep s { s with lru := l, lruDr := l' }

/-- The orders that `test_coeffs_calc` compares, /repo/src/zernpy/calculations/find_pols_coeffs.py:395-418. -/
def testedOrders : List (Int × Int) :=
  [(-9, 9), (-7, 9), (-5, 9), (-3, 9), (-1, 9), (1, 9), (5, 9), (0, 10), (2, 10), (4, 10), (-6, 10), (7, 9)]

/-- `orders_rec = find_coeffs_orders(...); assert check_equal_coeffs(orders_rec, precalculated_initial_coeffs[...])` for every tested pair; `prod` is the table
`precalculated_initial_coeffs`, a missing key a `KeyError`, a failed assertion `otherError`, /repo/src/zernpy/calculations/find_pols_coeffs.py:386-418. -/
def testCoeffsCalc (fuel : Nat) (prod : Table) : List (Int × Int) → CM Unit
  | [] => pure ()
  | (m, n) :: rest => do
    let d ← findCoeffs fuel true m n
    match prod.lookup (m, n) with
    | none => CM.raise .keyError
    | some e =>
      let equal ← CM.lift (checkEqualCoeffs (itemsFrom 0 d) (itemsFrom 0 e))
      if equal then testCoeffsCalc fuel prod rest else CM.raise .otherError

/-- The orders that `test_coeffs_dr_calc` compares, /repo/src/zernpy/calculations/find_pols_coeffs.py:430-449. -/
def testedOrdersDr : List (Int × Int) :=
  [(-9, 9), (-7, 9), (-5, 9), (-1, 9), (1, 9), (3, 9), (-6, 10), (-2, 10), (0, 10), (4, 10)]

/-- `test_coeffs_dr_calc`; `prod` is the table `precalculated_initial_coeffs_dr`, /repo/src/zernpy/calculations/find_pols_coeffs.py:421-449. -/
def testCoeffsDrCalc (fuel : Nat) (prod : Table) : List (Int × Int) → CM Unit
  | [] => pure ()
  | (m, n) :: rest => do
    let d ← findCoeffsDr fuel true m n
    match prod.lookup (m, n) with
    | none => CM.raise .keyError
    | some e =>
      let equal ← CM.lift (checkEqualCoeffs (itemsFrom 0 d) (itemsFrom 0 e))
      if equal then testCoeffsDrCalc fuel prod rest else CM.raise .otherError

end Verif.Model
