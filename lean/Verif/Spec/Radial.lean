import Verif.Spec.Orders
import Mathlib.Data.Real.Basic
import Mathlib.Data.Nat.Factorial.Basic
import Mathlib.Algebra.BigOperators.Group.Finset.Basic

/-!
# Specification: the Zernike radial polynomial

The textbook formula (e.g. Lakshminarayanan & Fleck 2011, or Wikipedia "Zernike polynomials").
-/

namespace Verif.Spec
open Finset Nat

/-- `R_n^m(r) = Σ_{k=0}^{(n-|m|)/2} (-1)^k (n-k)! / (k! ((n+|m|)/2-k)! ((n-|m|)/2-k)!) r^(n-2k)`. -/
noncomputable def radial (m n : Int) (r : ℝ) : ℝ :=
  ∑ k ∈ range ((n.toNat - m.natAbs) / 2 + 1),
    (-1) ^ k * ((n.toNat - k)! : ℝ) /
      ((k ! : ℝ) * (((n.toNat + m.natAbs) / 2 - k)! : ℝ) * (((n.toNat - m.natAbs) / 2 - k)! : ℝ)) *
      r ^ (n.toNat - 2 * k)

end Verif.Spec
