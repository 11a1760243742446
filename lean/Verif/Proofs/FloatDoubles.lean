import Verif.Proofs.FloatMethods
import Verif.Proofs.Numeric

/-!
# Double precision is accurate, and exact on integers
-/

namespace Verif.Proofs
open Verif.Model Verif.Spec

theorem binary64_error (x : ℝ) : |binary64 x - x| ≤ 2⁻¹ ^ 53 * max |x| 1 := by
  unfold binary64
  split_ifs with hx
  · subst hx; simp
  · set e := max (Int.log 2 |x| - 52) (-1074) with he
    have hp : (0 : ℝ) < 2 ^ e := by positivity
    have h1 := rint_near (x / 2 ^ e)
    have h2 : |(rint (x / 2 ^ e) : ℝ) * 2 ^ e - x| ≤ 1 / 2 * 2 ^ e := by
      have : (rint (x / 2 ^ e) : ℝ) * 2 ^ e - x = ((rint (x / 2 ^ e) : ℝ) - x / 2 ^ e) * 2 ^ e := by
        rw [sub_mul, div_mul_cancel₀ _ hp.ne']
      rw [this, abs_mul, abs_of_pos hp]
      exact mul_le_mul_of_nonneg_right h1 hp.le
    refine h2.trans ?_
    have hx' : 0 < |x| := abs_pos.2 hx
    rcases max_choice (Int.log 2 |x| - 52) (-1074) with h | h
    · rw [← he] at h
      rw [h, zpow_sub₀ (by norm_num)]
      have h3 : (2 : ℝ) ^ Int.log 2 |x| ≤ |x| := by
        have := Int.zpow_log_le_self (b := 2) (r := |x|) (by norm_num) hx'
        exact_mod_cast this
      have h4 : |x| ≤ max |x| 1 := le_max_left _ _
      norm_num
      norm_num at h3
      linarith
    · rw [← he] at h
      rw [h]
      have h4 : 1 ≤ max |x| 1 := le_max_right _ _
      have h5 : (1 : ℝ) / 2 * 2 ^ (-1074 : ℤ) ≤ 2⁻¹ ^ 53 := by
        rw [show (-1074 : ℤ) = -52 + -1022 by norm_num, zpow_add₀ (by norm_num)]
        have : (2 : ℝ) ^ (-1022 : ℤ) ≤ 1 := zpow_le_one_of_nonpos₀ (by norm_num) (by norm_num)
        have h6 : (1 : ℝ) / 2 * 2 ^ (-52 : ℤ) = 2⁻¹ ^ 53 := by norm_num
        rw [← mul_assoc, h6]
        exact mul_le_of_le_one_right (by positivity) this
      calc _ ≤ (2⁻¹ : ℝ) ^ 53 := h5
        _ ≤ _ := le_mul_of_one_le_right (by positivity) h4

theorem binary64_int (a : ℤ) (h : |a| < 2 ^ 53) : binary64 a = a := by
  unfold binary64
  split_ifs with hx
  · rw [hx]
  · have ha : a ≠ 0 := by exact_mod_cast hx
    have h1 : Int.log 2 |(a : ℝ)| < 53 := by
      rw [← Int.lt_zpow_iff_log_lt (by norm_num) (abs_pos.2 hx)]
      exact_mod_cast h
    set e := max (Int.log 2 |(a : ℝ)| - 52) (-1074) with he
    have h0 : e ≤ 0 := by omega
    obtain ⟨k, hk⟩ := Int.eq_ofNat_of_zero_le (show 0 ≤ -e by omega)
    have h2 : (2 : ℝ) ^ e = (2 ^ k : ℝ)⁻¹ := by
      rw [show e = -(k : ℤ) by omega, zpow_neg, zpow_natCast]
    rw [h2, div_inv_eq_mul]
    have h3 : (a : ℝ) * 2 ^ k = ((a * 2 ^ k : ℤ) : ℝ) := by push_cast; ring
    rw [h3, rint_int]
    push_cast
    field_simp

theorem doubles_accurate : Accurate doubles (2⁻¹ ^ 53) 1 where
  unit := by positivity
  small := by norm_num
  fl := binary64_error
  sqrt x _ := by
    have := binary64_error (Real.sqrt x)
    rwa [abs_of_nonneg (Real.sqrt_nonneg x)] at this
  pow x k h0 h1 := by
    have := binary64_error (x ^ k)
    rw [abs_of_nonneg (show 0 ≤ x ^ k by positivity), max_eq_right (pow_le_one₀ h0 h1)] at this
    show |binary64 (x ^ k) - x ^ k| ≤ _
    linarith
  cos x := by
    have := binary64_error (Real.cos x)
    rw [max_eq_right (Real.abs_cos_le_one x)] at this
    show |binary64 (Real.cos x) - Real.cos x| ≤ _
    linarith
  sin x := by
    have := binary64_error (Real.sin x)
    rw [max_eq_right (Real.abs_sin_le_one x)] at this
    show |binary64 (Real.sin x) - Real.sin x| ≤ _
    linarith

theorem doubles_exact : ExactOnIntegers doubles where
  fl := binary64_int
  one_pow k := by
    show binary64 (1 ^ k) = 1
    rw [one_pow]
    have := binary64_int 1 (by norm_num)
    simpa using this
  zero_pow k := by
    show binary64 (0 ^ k) = 0 ^ k
    cases k with
    | zero =>
      have := binary64_int 1 (by norm_num)
      simpa using this
    | succ k =>
      have := binary64_int 0 (by norm_num)
      simpa using this

end Verif.Proofs
