import Verif.Spec.Diffraction

/-!
# Specification: the image that an ideal microscope with a given PSF would show
-/

namespace Verif.Spec

/-- `ext` continues the image beyond its borders by reflection: the pixel at the distance `k + 1` beyond a border is the pixel at the distance `k` inside. -/
structure Reflected (img : ℕ → ℕ → ℝ) (rows cols : ℕ) (ext : ℤ → ℤ → ℝ) : Prop where
  inside : ∀ i j : ℕ, i < rows → j < cols → ext i j = img i j
  top : ∀ i j, ext (-1 - i) j = ext i j
  bottom : ∀ i j, ext (2 * rows - 1 - i) j = ext i j
  left : ∀ i j, ext i (-1 - j) = ext i j
  right : ∀ i j, ext i (2 * cols - 1 - j) = ext i j

/-- The image `ext` blurred by the weights `w` of `S × S` pixels (`S` odd): each point of the image contributes with the weight at its distance, and the weights are divided by their sum. -/
noncomputable def idealImage (w : ℕ → ℕ → ℝ) (S : ℕ) (ext : ℤ → ℤ → ℝ) (i j : ℕ) : ℝ :=
  (∑ a ∈ Finset.range S, ∑ b ∈ Finset.range S, w a b * ext (i + S / 2 - a) (j + S / 2 - b)) / ∑ a ∈ Finset.range S, ∑ b ∈ Finset.range S, w a b

end Verif.Spec
