import Verif.Spec.Psf

/-!
# A quadrature rule on given nodes
-/

namespace Verif.Spec

/-- The rule with step `h` on `[0, 1]`: weight `h` for the listed inner nodes and half of it for both ends. With `h = 1/N` and the nodes `k/N` it
is the trapezoidal rule. -/
noncomputable def nodeRule (h : ℝ) (nodes : List ℝ) (f : ℝ → ℂ) : ℂ := (h : ℂ) * ((nodes.map f).sum + (f 0 + f 1) / 2)

end Verif.Spec
