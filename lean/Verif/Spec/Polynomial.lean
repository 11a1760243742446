import Mathlib.Algebra.MvPolynomial.Eval
import Mathlib.Analysis.SpecialFunctions.Trigonometric.Basic
import Mathlib.Data.Fin.VecNotation

/-! # Specification: polynomials in the Cartesian coordinates -/

namespace Verif.Spec

/-- The value of the polynomial `P(x, y)` at the point with the polar coordinates `(r, θ)`, `x = r cos θ`, `y = r sin θ`. -/
noncomputable def polynomialAt (P : MvPolynomial (Fin 2) ℝ) (r θ : ℝ) : ℝ := MvPolynomial.eval ![r * Real.cos θ, r * Real.sin θ] P

end Verif.Spec
