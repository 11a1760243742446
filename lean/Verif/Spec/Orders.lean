import Mathlib.Data.Set.Function
import Mathlib.Order.Interval.Set.Defs
import Mathlib.Algebra.Order.Group.Unbundled.Int

/-!
# Specification: valid orders of Zernike polynomials

Independent of the code of zernpy: the textbook definition of the admissible
(azimuthal, radial) orders `(m, n)`.
-/

namespace Verif.Spec

/-- `(m, n)` are orders of a Zernike polynomial: `n ≥ 0`, `|m| ≤ n` and `n - |m|` is even. -/
def ValidOrders (m n : Int) : Prop := 0 ≤ n ∧ |m| ≤ n ∧ (2 : Int) ∣ n - |m|

instance (m n : Int) : Decidable (ValidOrders m n) := by unfold ValidOrders; infer_instance

/-- The set of all pairs of valid orders. -/
def validPairs : Set (Int × Int) := {p | ValidOrders p.1 p.2}

end Verif.Spec
