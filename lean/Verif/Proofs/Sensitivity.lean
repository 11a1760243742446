import Verif.Proofs.PsfRate

/-!
# How much the PSF changes with the phase and the image point
-/

namespace Verif.Proofs
open Verif.Model Verif.Spec

theorem angularRule_sub (N : ℕ) (f g : ℝ → ℂ) : angularRule N f - angularRule N g = angularRule N fun φ => f φ - g φ := by
  unfold angularRule
  simp only [Finset.sum_sub_distrib]
  ring

/-- Two points of the unit circle are not farther apart than their angles. -/
theorem norm_exp_sub_le (s t : ℝ) : ‖Complex.exp (Complex.I * (s : ℂ)) - Complex.exp (Complex.I * (t : ℂ))‖ ≤ |s - t| := by
  have e : Complex.exp (Complex.I * (s : ℂ)) - Complex.exp (Complex.I * (t : ℂ)) =
      Complex.exp ((t : ℂ) * Complex.I) * (Complex.exp (Complex.I * ((s - t : ℝ) : ℂ)) - 1) := by
    rw [mul_sub, ← Complex.exp_add, mul_one, mul_comm (t : ℂ)]
    push_cast
    congr 2
    ring
  rw [e, norm_mul, Complex.norm_exp_ofReal_mul_I, one_mul]
  exact Real.norm_exp_I_mul_ofReal_sub_one_le

/-- The PSF is Lipschitz continuous in the phase of the diffraction integrand, with the constant 2. -/
theorem psfXY_lipschitz (Φ Ψ : ℝ → ℝ → ℝ) (x y x' y' : ℝ) (nR nPhi : ℕ) (hR : 0 < nR) (hPhi : 0 < nPhi) (δ : ℝ)
    (h : ∀ p φ, 0 ≤ p → p ≤ 1 → |(Φ p φ - p * (x * Real.cos φ + y * Real.sin φ)) - (Ψ p φ - p * (x' * Real.cos φ + y' * Real.sin φ))| ≤ δ) :
    |psfXY Φ x y nR nPhi - psfXY Ψ x' y' nR nPhi| ≤ 2 * δ := by
  have hδ : 0 ≤ δ := (abs_nonneg _).trans (h 0 0 le_rfl zero_le_one)
  have hpi := Real.pi_pos
  have hf0 := fraction_pos nPhi hPhi
  have hf1 := fraction_lt_one nPhi hPhi
  have size : ∀ (Φ : ℝ → ℝ → ℝ) (x y : ℝ), ‖angularRule nPhi fun φ => trapezoid nR fun p => pupilFieldXY Φ x y p φ‖ ≤ Real.pi := by
    intro Φ x y
    have := angularRule_norm_le nPhi hPhi (fun φ => trapezoid nR fun p => pupilFieldXY Φ x y p φ) (1 / 2) (fun φ => by
      have := trapezoid_norm_le nR (fun p => pupilFieldXY Φ x y p φ) (fun p => p) fun p hp _ => (norm_pupilFieldXY Φ x y p φ hp).le
      rw [trapezoid_id nR hR] at this
      simpa using this)
    nlinarith
  have diff : ‖(angularRule nPhi fun φ => trapezoid nR fun p => pupilFieldXY Φ x y p φ) -
      angularRule nPhi fun φ => trapezoid nR fun p => pupilFieldXY Ψ x' y' p φ‖ ≤ Real.pi * δ := by
    rw [angularRule_sub]
    have := angularRule_norm_le nPhi hPhi (fun φ => (trapezoid nR fun p => pupilFieldXY Φ x y p φ) - trapezoid nR fun p => pupilFieldXY Ψ x' y' p φ) (δ / 2) (fun φ => by
      rw [trapezoid_sub]
      have := trapezoid_norm_le nR (fun p => pupilFieldXY Φ x y p φ - pupilFieldXY Ψ x' y' p φ) (fun p => δ * p) (fun p hp hp1 => by
        unfold pupilFieldXY
        rw [← sub_mul, norm_mul, Complex.norm_real, Real.norm_of_nonneg hp]
        exact mul_le_mul_of_nonneg_right ((norm_exp_sub_le _ _).trans (h p φ hp hp1)) hp)
      have e : trapezoid nR (fun p => ((δ * p : ℝ) : ℂ)) = (δ : ℂ) * trapezoid nR fun p => (p : ℂ) := by
        unfold trapezoid
        simp only [Complex.ofReal_mul, ← Finset.mul_sum]
        ring
      rw [e, trapezoid_id nR hR, norm_mul, Complex.norm_real, Real.norm_of_nonneg hδ] at this
      refine this.trans (le_of_eq ?_)
      norm_num
      ring)
    refine this.trans ?_
    have : angularFraction nPhi * δ ≤ 1 * δ := mul_le_mul_of_nonneg_right hf1.le hδ
    nlinarith
  unfold psfXY
  have a := size Φ x y
  have b := size Ψ x' y'
  have c := abs_norm_sub_norm_le (angularRule nPhi fun φ => trapezoid nR fun p => pupilFieldXY Φ x y p φ)
    (angularRule nPhi fun φ => trapezoid nR fun p => pupilFieldXY Ψ x' y' p φ)
  generalize hF : ‖angularRule nPhi fun φ => trapezoid nR fun p => pupilFieldXY Φ x y p φ‖ = F at *
  generalize hG : ‖angularRule nPhi fun φ => trapezoid nR fun p => pupilFieldXY Ψ x' y' p φ‖ = G at *
  have F0 : 0 ≤ F := by rw [← hF]; exact norm_nonneg _
  have G0 : 0 ≤ G := by rw [← hG]; exact norm_nonneg _
  rw [← sub_div, abs_div, abs_of_pos (show (0 : ℝ) < Real.pi ^ 2 by positivity), div_le_iff₀ (by positivity)]
  have e : F ^ 2 - G ^ 2 = (F - G) * (F + G) := by ring
  rw [e, abs_mul, abs_of_nonneg (show 0 ≤ F + G by linarith)]
  have d := c.trans diff
  calc |F - G| * (F + G) ≤ (Real.pi * δ) * (2 * Real.pi) := mul_le_mul d (by linarith) (by linarith) (by positivity)
    _ = _ := by ring

/-- The scalar product with a unit vector is not greater than the length. -/
theorem dot_le (a b φ : ℝ) : |a * Real.cos φ + b * Real.sin φ| ≤ Real.sqrt (a ^ 2 + b ^ 2) := by
  apply Real.abs_le_sqrt
  have := Real.sin_sq_add_cos_sq φ
  nlinarith [sq_nonneg (a * Real.sin φ - b * Real.cos φ)]

theorem psfXY_sensitive (Φ Ψ : ℝ → ℝ → ℝ) (x y x' y' : ℝ) (nR nPhi : ℕ) (hR : 0 < nR) (hPhi : 0 < nPhi) (δ : ℝ)
    (h : ∀ p φ, 0 ≤ p → p ≤ 1 → |Φ p φ - Ψ p φ| ≤ δ) :
    |psfXY Φ x y nR nPhi - psfXY Ψ x' y' nR nPhi| ≤ 2 * (δ + Real.sqrt ((x - x') ^ 2 + (y - y') ^ 2)) := by
  apply psfXY_lipschitz Φ Ψ x y x' y' nR nPhi hR hPhi
  intro p φ h0 h1
  have e : (Φ p φ - p * (x * Real.cos φ + y * Real.sin φ)) - (Ψ p φ - p * (x' * Real.cos φ + y' * Real.sin φ)) =
      (Φ p φ - Ψ p φ) - p * ((x - x') * Real.cos φ + (y - y') * Real.sin φ) := by ring
  rw [e]
  refine (abs_sub _ _).trans (add_le_add (h p φ h0 h1) ?_)
  rw [abs_mul, abs_of_nonneg h0]
  have := dot_le (x - x') (y - y') φ
  calc _ ≤ 1 * |(x - x') * Real.cos φ + (y - y') * Real.sin φ| := mul_le_mul_of_nonneg_right h1 (abs_nonneg _)
    _ ≤ _ := by linarith

end Verif.Proofs
