import Verif.Model.Numeric
import Mathlib.Tactic.Linarith
import Mathlib.Tactic.Positivity
import Mathlib.Tactic.FieldSimp
import Mathlib.Tactic.NormNum

/-! # Rounding -/

namespace Verif.Proofs
open Verif.Model

theorem rint_bounds (x : ℝ) : ⌊x⌋ ≤ rint x ∧ rint x ≤ ⌊x⌋ + 1 := by
  unfold rint; split_ifs <;> omega

theorem rint_near (x : ℝ) : |(rint x : ℝ) - x| ≤ 1 / 2 := by
  have h0 := Int.floor_le x
  have h1 := Int.lt_floor_add_one x
  unfold rint
  split_ifs with a b c
  · rw [abs_le]; constructor <;> linarith
  · rw [abs_le]; push_cast; constructor <;> linarith
  · rw [abs_le]; constructor <;> linarith
  · rw [abs_le]; push_cast; constructor <;> linarith

theorem rint_int (n : ℤ) : rint (n : ℝ) = n := by
  unfold rint; simp

theorem rint_mono {x y : ℝ} (h : x ≤ y) : rint x ≤ rint y := by
  rcases lt_or_eq_of_le (Int.floor_le_floor h) with hlt | heq
  · have := (rint_bounds x).2
    have := (rint_bounds y).1
    omega
  · unfold rint
    rw [heq]
    split_ifs <;> first | omega | (exfalso; linarith)

theorem rint_le {x : ℝ} {n : ℤ} (h : x ≤ n) : rint x ≤ n := by
  have := rint_mono h; rwa [rint_int] at this

theorem le_rint {x : ℝ} {n : ℤ} (h : (n : ℝ) ≤ x) : n ≤ rint x := by
  have := rint_mono h; rwa [rint_int] at this

theorem pow10_pos (d : ℤ) : (0 : ℝ) < 10 ^ d := by positivity

theorem npRound_near (d : ℤ) (x : ℝ) : |npRound d x - x| ≤ 1 / 2 / 10 ^ d := by
  have h := rint_near (x * 10 ^ d)
  have hp := pow10_pos d
  unfold npRound
  rw [show (rint (x * 10 ^ d) : ℝ) / 10 ^ d - x = ((rint (x * 10 ^ d) : ℝ) - x * 10 ^ d) / 10 ^ d by
    field_simp]
  rw [abs_div, abs_of_pos hp]
  exact div_le_div_of_nonneg_right h hp.le

theorem npRound_mono (d : ℤ) {x y : ℝ} (h : x ≤ y) : npRound d x ≤ npRound d y := by
  have hp := pow10_pos d
  unfold npRound
  apply div_le_div_of_nonneg_right _ hp.le
  exact_mod_cast rint_mono (mul_le_mul_of_nonneg_right h hp.le)

theorem npRound_dec (d : ℤ) (k : ℤ) : npRound d ((k : ℝ) / 10 ^ d) = (k : ℝ) / 10 ^ d := by
  have hp := pow10_pos d
  unfold npRound
  rw [div_mul_cancel₀ _ hp.ne', rint_int]

theorem npRound_zero (d : ℤ) : npRound d 0 = 0 := by
  have := npRound_dec d 0; simpa using this

/-- An integer is kept by rounding to a non-negative number of decimals. -/
theorem npRound_int (d : ℕ) (k : ℤ) : npRound d (k : ℝ) = k := by
  have hp := pow10_pos d
  have := npRound_dec d (k * 10 ^ d)
  push_cast at this
  rwa [zpow_natCast, mul_div_cancel_right₀ _ (by positivity)] at this

theorem npRound_nonneg (d : ℤ) {x : ℝ} (h : 0 ≤ x) : 0 ≤ npRound d x := by
  have := npRound_mono d h; rwa [npRound_zero] at this

theorem arctan2_mem (y x : ℝ) : -Real.pi < arctan2 y x ∧ arctan2 y x ≤ Real.pi :=
  ⟨Complex.neg_pi_lt_arg _, Complex.arg_le_pi _⟩

end Verif.Proofs
