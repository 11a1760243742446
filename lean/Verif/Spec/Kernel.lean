import Verif.Model.Sums
import Verif.Spec.Psf

/-!
# Specification: square kernels with given elements
-/

namespace Verif.Spec
open Verif.Model (Grid)

/-- `g` is a `size × size` array with the elements `v i j`. -/
def IsKernel (g : Grid) (size : Nat) (v : Nat → Nat → ℝ) : Prop :=
  g.rows = size ∧ g.cols = size ∧ ∀ i j, i < size → j < size → g.entry i j = v i j

/-- `g` has the elements `v i j`; with `normalize` they are divided by the greatest one. -/
def KernelOf (normalize : Bool) (size : Nat) (v : Nat → Nat → ℝ) (g : Grid) : Prop :=
  if normalize then ∃ a b, a < size ∧ b < size ∧ (∀ i j, i < size → j < size → v i j ≤ v a b) ∧ IsKernel g size fun i j => v i j / v a b
  else IsKernel g size v

/-- Image coordinate (in units of `wavelength / (2π NA)`) per pixel. -/
noncomputable def opticalScale (wavelength NA pixelSize : ℝ) : ℝ := 2 * Real.pi / wavelength * NA * pixelSize

/-- The PSF at the pixel in row `i` and column `j` of a kernel of `S × S` pixels, `S` odd, centred at the pixel `((S-1)/2, (S-1)/2)`. -/
noncomputable def pixelPsf (Φ : ℝ → ℝ → ℝ) (scale : ℝ) (S nR nPhi : ℕ) (i j : ℕ) : ℝ :=
  psfXY Φ (scale * (((S : ℝ) - 1) / 2 - j)) (scale * (((S : ℝ) - 1) / 2 - i)) nR nPhi

/-- `S` is the requested size, or the next one if that is even. -/
def OddSize (requested : Int) (S : ℕ) : Prop := S % 2 = 1 ∧ ((S : Int) = requested ∨ (S : Int) = requested + 1)

/-- `top` is the greatest element of the `n × n` array. -/
def IsMax (g : Grid) (n : Nat) (top : ℝ) : Prop := (∃ i j, i < n ∧ j < n ∧ g.entry i j = top) ∧ ∀ i j, i < n → j < n → g.entry i j ≤ top

/-- What cropping by `t` lines means: everything removed is less than the threshold `part * top`, and on the border of the rest some element
reaches it. -/
structure CropBy (g : Grid) (n : Nat) (part top : ℝ) (t : Nat) : Prop where
  nonempty : 2 * t < n
  removed : ∀ i j, i < n → j < n → (i < t ∨ n - t ≤ i ∨ j < t ∨ n - t ≤ j) → g.entry i j < part * top
  border : ∃ i j, t ≤ i ∧ i < n - t ∧ t ≤ j ∧ j < n - t ∧ (i = t ∨ i = n - 1 - t ∨ j = t ∨ j = n - 1 - t) ∧ part * top ≤ g.entry i j

/-- The array without `t` lines on each side. -/
def IsInner (g : Grid) (n t : Nat) (g' : Grid) : Prop :=
  g'.rows = n - 2 * t ∧ g'.cols = n - 2 * t ∧ ∀ i j, g'.entry i j = g.entry (i + t) (j + t)

end Verif.Spec
