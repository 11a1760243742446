import Verif.Spec.Bessel
import Verif.Model.Psf
import Verif.Proofs.Numeric
import Mathlib.Analysis.SpecialFunctions.Integrals.Basic

/-! # Bound of the Airy pattern -/

namespace Verif.Proofs
open Verif.Model Verif.Spec MeasureTheory intervalIntegral

theorem j1_sin (x : ℝ) : besselJ1 x = (1 / Real.pi) * ∫ τ in (0 : ℝ)..Real.pi, Real.sin τ * Real.sin (x * Real.sin τ) := by
  unfold besselJ1
  have e : ∀ τ : ℝ, Real.cos (τ - x * Real.sin τ) = Real.cos τ * Real.cos (x * Real.sin τ) + Real.sin τ * Real.sin (x * Real.sin τ) :=
    fun τ => Real.cos_sub _ _
  simp only [e]
  have i1 : IntervalIntegrable (fun τ => Real.cos τ * Real.cos (x * Real.sin τ)) volume 0 Real.pi := by
    apply Continuous.intervalIntegrable; fun_prop
  have i2 : IntervalIntegrable (fun τ => Real.sin τ * Real.sin (x * Real.sin τ)) volume 0 Real.pi := by
    apply Continuous.intervalIntegrable; fun_prop
  rw [integral_add i1 i2]
  have z : ∫ τ in (0 : ℝ)..Real.pi, Real.cos τ * Real.cos (x * Real.sin τ) = 0 := by
    have h := integral_comp_sub_left (fun τ => Real.cos τ * Real.cos (x * Real.sin τ)) Real.pi (a := 0) (b := Real.pi)
    simp only [Real.cos_pi_sub, Real.sin_pi_sub, sub_self, sub_zero, neg_mul, intervalIntegral.integral_neg] at h
    linarith
  rw [z, zero_add]

theorem j1_bound (x : ℝ) : |besselJ1 x| ≤ |x| / 2 := by
  rw [j1_sin, abs_mul]
  have hpi := Real.pi_pos
  have h : |∫ τ in (0 : ℝ)..Real.pi, Real.sin τ * Real.sin (x * Real.sin τ)| ≤ ∫ τ in (0 : ℝ)..Real.pi, |x| * Real.sin τ ^ 2 := by
    refine (abs_integral_le_integral_abs hpi.le).trans ?_
    apply integral_mono_on hpi.le
    · apply Continuous.intervalIntegrable; fun_prop
    · apply Continuous.intervalIntegrable; fun_prop
    · intro τ _
      rw [abs_mul]
      have h1 : |Real.sin (x * Real.sin τ)| ≤ |x * Real.sin τ| := Real.abs_sin_le_abs
      rw [abs_mul] at h1
      calc |Real.sin τ| * |Real.sin (x * Real.sin τ)| ≤ |Real.sin τ| * (|x| * |Real.sin τ|) :=
            mul_le_mul_of_nonneg_left h1 (abs_nonneg _)
        _ = |x| * |Real.sin τ| ^ 2 := by ring
        _ = _ := by rw [sq_abs]
  rw [intervalIntegral.integral_const_mul, integral_sin_sq] at h
  simp at h
  rw [abs_of_pos (by positivity)]
  calc 1 / Real.pi * _ ≤ 1 / Real.pi * (|x| * (Real.pi / 2)) := mul_le_mul_of_nonneg_left h (by positivity)
    _ = _ := by field_simp

theorem ratio_sq_le (x : ℝ) (hx : x ≠ 0) : 4 * (besselJ1 x / x) ^ 2 ≤ 1 := by
  have h := j1_bound x
  have hx' : 0 < |x| := abs_pos.2 hx
  have : |besselJ1 x / x| ≤ 1 / 2 := by
    rw [abs_div, div_le_iff₀ hx']; linarith
  have h2 := sq_le_sq' (abs_le.1 this).1 (abs_le.1 this).2
  norm_num at h2 ⊢
  linarith

theorem ratio_ge (x : ℝ) (hx : 0 < x) (hx1 : x ≤ 1) : (1 - x ^ 2 / 4) / 2 ≤ besselJ1 x / x := by
  have hpi := Real.pi_pos
  rw [j1_sin]
  have h : ∫ τ in (0 : ℝ)..Real.pi, (x * (1 - x ^ 2 / 4)) * Real.sin τ ^ 2 ≤
      ∫ τ in (0 : ℝ)..Real.pi, Real.sin τ * Real.sin (x * Real.sin τ) := by
    apply integral_mono_on hpi.le
    · apply Continuous.intervalIntegrable; fun_prop
    · apply Continuous.intervalIntegrable; fun_prop
    · intro τ hτ
      have h0 : 0 ≤ Real.sin τ := Real.sin_nonneg_of_nonneg_of_le_pi hτ.1 hτ.2
      have h1 : Real.sin τ ≤ 1 := Real.sin_le_one τ
      have hy0 : 0 ≤ x * Real.sin τ := by positivity
      have hy1 : x * Real.sin τ ≤ x := by nlinarith
      have hs : x * Real.sin τ - (x * Real.sin τ) ^ 3 / 4 ≤ Real.sin (x * Real.sin τ) := by
        rcases hy0.lt_or_eq with hp | hp
        · have := Real.sin_gt_sub_cube hp
          have h3 : 0 < (x * Real.sin τ) ^ 3 := by positivity
          linarith
        · rw [← hp]; simp
      have : x * (1 - x ^ 2 / 4) * Real.sin τ ≤ x * Real.sin τ - (x * Real.sin τ) ^ 3 / 4 := by
        have : Real.sin τ ^ 3 ≤ Real.sin τ := by
          have := mul_le_of_le_one_left h0 (pow_le_one₀ h0 h1 : Real.sin τ ^ 2 ≤ 1)
          calc _ = Real.sin τ ^ 2 * Real.sin τ := by ring
            _ ≤ _ := this
        have h3 : 0 ≤ x ^ 3 / 4 := by positivity
        nlinarith
      calc _ = Real.sin τ * (x * (1 - x ^ 2 / 4) * Real.sin τ) := by ring
        _ ≤ _ := mul_le_mul_of_nonneg_left (this.trans hs) h0
  rw [intervalIntegral.integral_const_mul, integral_sin_sq] at h
  simp at h
  rw [le_div_iff₀ hx]
  calc _ = 1 / Real.pi * (x * (1 - x ^ 2 / 4) * (Real.pi / 2)) := by field_simp
    _ ≤ _ := mul_le_mul_of_nonneg_left h (by positivity)

theorem airy_center : 1 - 1e-20 ≤ airyRef besselJ1 0 := by
  unfold airyRef
  have : npRound 12 0 = 0 := by
    have := npRound_dec 12 0
    simpa using this
  rw [this]
  dsimp only
  rw [if_pos rfl]
  have h := ratio_ge 1e-11 (by norm_num) (by norm_num)
  have h2 := mul_self_le_mul_self (by norm_num) h
  rw [pow_two]
  norm_num at h2 ⊢
  linarith

theorem airy_mem (r : ℝ) : 0 ≤ airyRef besselJ1 r ∧ airyRef besselJ1 r ≤ 1 := by
  unfold airyRef
  constructor
  · positivity
  · dsimp only
    split_ifs with h
    · exact ratio_sq_le _ (by norm_num)
    · exact ratio_sq_le _ h

end Verif.Proofs
