import Verif.Proofs.FloatRepro2
import Verif.Props.FloatPsf

/-!
# C78: results are reproducible to the last bit

Here nothing is assumed of the arithmetic `F`: its operations may round in any way (but a given operation on given numbers always gives the same number).
`afterCalls h` is the state of the coefficient tables and caches after the history `h`; the numbers `fuel`, `fuel'` of nested calls that Python's recursion limit still allows
may differ too.
-/

namespace Verif.Props
open Verif.Model Verif.Spec Verif.Proofs

/-- C78. `radial(r)` returns the same number after all histories, and the same for the orders `(m, n)` and `(-m, n)`. -/
theorem radial_reproducible (F : FloatArith) (h h' : List Call) (fuel fuel' : Nat) (exact : Bool) (m m' n : Int) (hm : m' = m ∨ m' = -m) (hv : ValidOrders m n)
    (hf : n.toNat + 1 < fuel) (hf' : n.toNat + 1 < fuel') (r : Fl F) :
    ∃ y, (radialFl F fuel exact m n r (afterCalls h)).1 = .ok y ∧ (radialFl F fuel' exact m' n r (afterCalls h')).1 = .ok y := by
  have e : pyAbs m = pyAbs m' := by unfold pyAbs; split_ifs <;> omega
  obtain ⟨y, a, b⟩ := radialValue_both fl_add_comm fuel fuel' exact m m' n r e hv hf hf'
  exact ⟨y, (a _ (afterCalls_good h)).1, (b _ (afterCalls_good h')).1⟩

/-- C78. The same for `radial_dr(r)`. -/
theorem radial_dr_reproducible (F : FloatArith) (h h' : List Call) (fuel fuel' : Nat) (exact : Bool) (m m' n : Int) (hm : m' = m ∨ m' = -m)
    (hv : ValidOrders m n) (hf : n.toNat + 1 < fuel) (hf' : n.toNat + 1 < fuel') (r : Fl F) :
    ∃ y, (radialDrFl F fuel exact m n r (afterCalls h)).1 = .ok y ∧ (radialDrFl F fuel' exact m' n r (afterCalls h')).1 = .ok y := by
  have e : pyAbs m = pyAbs m' := by unfold pyAbs; split_ifs <;> omega
  obtain ⟨y, a, b⟩ := radialDrValue_both fl_add_comm fuel fuel' exact m m' n r e hv hf hf'
  exact ⟨y, (a _ (afterCalls_good h)).1, (b _ (afterCalls_good h')).1⟩

/-- C78. `polynomial_value(r, θ)` returns the same number after all histories. -/
theorem value_reproducible (F : FloatArith) (h h' : List Call) (fuel fuel' : Nat) (exact : Bool) (m n : Int) (hv : ValidOrders m n)
    (hf : n.toNat + 1 < fuel) (hf' : n.toNat + 1 < fuel') (r t : Fl F) :
    ∃ y, (polynomialFl F fuel exact m n r t (afterCalls h)).1 = .ok y ∧ (polynomialFl F fuel' exact m n r t (afterCalls h')).1 = .ok y := by
  obtain ⟨y, a, b⟩ := polynomialFl_both F fuel fuel' exact m n hv hf hf' r t
  exact ⟨y, (a _ (afterCalls_good h)).1, (b _ (afterCalls_good h')).1⟩

/-- C78. The PSF kernel of one polynomial: all pixels are the same numbers after all histories (or the same exception is raised). -/
theorem kernel_reproducible (F : PsfArith) (h h' : List Call) (fuel fuel' : Nat) (o : PolObj) (hv : ValidOrders o.m o.n) (hf : o.n.toNat + 1 < fuel)
    (hf' : o.n.toNat + 1 < fuel') (coeff : ℝ) (q : KernelParams) :
    (fltPsfKernel F fuel o coeff q (afterCalls h)).1 = (fltPsfKernel F fuel' o coeff q (afterCalls h')).1 :=
  (fltPsfKernel_same F fuel fuel' o hv hf hf' coeff q).eq (afterCalls_good h) (afterCalls_good h')

/-- C78. The same for several polynomials. -/
theorem kernel_sum_reproducible (F : PsfArith) (h h' : List Call) (fuel fuel' : Nat) (l : List (ℝ × PolObj))
    (hl : ∀ p ∈ l, ValidOrders p.2.m p.2.n ∧ p.2.n.toNat + 1 < fuel ∧ p.2.n.toNat + 1 < fuel') (q : KernelParams) :
    (fltPsfKernelZerns F fuel l q (afterCalls h)).1 = (fltPsfKernelZerns F fuel' l q (afterCalls h')).1 :=
  (fltPsfKernelZerns_same F fuel fuel' l hl q).eq (afterCalls_good h) (afterCalls_good h')

/-- The hypothesis on the recursion limit is needed: if it allows only three nested calls, `radial` of the order (2, 14) raises `RecursionError` in a new process, and returns a
number after the coefficients were found before, when there was more room. -/
theorem recursion_limit_matters (F : FloatArith) (r : Fl F) :
    (radialFl F 3 false 2 14 r (afterCalls [])).1 = .error .recursionError ∧
    ∃ y, (radialFl F 3 false 2 14 r (afterCalls [.coeffs 16 false 2 14])).1 = .ok y := by
  have e : radialFl F 3 false 2 14 r = (do let d ← findCoeffs 2 false 2 14; pure (evalLoop r (itemsFrom 0 d) 0) : CM (Fl F)) := rfl
  rw [e]
  constructor
  · have h : (findCoeffs 2 false 2 14 (afterCalls [])).1 = .error .recursionError := by
      show (findCoeffs 2 false 2 14 initState).1 = .error .recursionError
      decide +kernel
    rw [good_bind_error h]
  · have h : ∃ d, (findCoeffs 2 false 2 14 (afterCalls [.coeffs 16 false 2 14])).1 = .ok d := by
      have k : (findCoeffs 2 false 2 14 (findCoeffs 16 false 2 14 initState).2).1.toOption.isSome = true := by decide +kernel
      show ∃ d, (findCoeffs 2 false 2 14 (findCoeffs 16 false 2 14 initState).2).1 = .ok d
      cases hc : (findCoeffs 2 false 2 14 (findCoeffs 16 false 2 14 initState).2).1 with
      | ok d => exact ⟨d, rfl⟩
      | error e => rw [hc] at k; cases k
    obtain ⟨d, h⟩ := h
    rw [good_bind h]
    exact ⟨_, rfl⟩

/-- In double precision: `radial` of the orders (±3, 21), after any history and in a new process, by the coefficient tables. -/
example (h : List Call) (r : Fl doubles) : ∃ y, (radialFl doubles 23 false 3 21 r (afterCalls h)).1 = .ok y ∧ (radialFl doubles 100 false (-3) 21 r (afterCalls [])).1 = .ok y :=
  radial_reproducible doubles h [] 23 100 false 3 (-3) 21 (Or.inr rfl) (by decide) (by decide) (by decide) r

/-- The kernel of the sample of C69. -/
example (h : List Call) (s : List ℝ → ℝ) (b : Bool) :
    (fltPsfKernel (psfDoubles s) 20 ⟨1, 3, false⟩ 0.25 (sampleParams b) (afterCalls h)).1 =
      (fltPsfKernel (psfDoubles s) 20 ⟨1, 3, false⟩ 0.25 (sampleParams b) (afterCalls [])).1 :=
  kernel_reproducible _ h [] 20 20 ⟨1, 3, false⟩ (by decide) (by decide) (by decide) _ _

end Verif.Props
