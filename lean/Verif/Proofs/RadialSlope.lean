import Verif.Proofs.RadialDr
import Verif.Proofs.RadialBound
import Verif.Proofs.RadialEq
import Mathlib.Algebra.Polynomial.Derivative
import Mathlib.Analysis.Calculus.Deriv.Polynomial

/-!
# The derivatives of the radial polynomials are greatest at the rim
-/

namespace Verif.Proofs
open Verif.Model Verif.Spec Polynomial

/-- The radial polynomial with `n = a + b`, `m = a - b`. -/
noncomputable def PX (a b : ℕ) : ℤ[X] := Rab a b (X : ℤ[X])

theorem PX_zero_left (b : ℕ) : PX 0 b = X ^ b := by unfold PX; rw [Rab]
theorem PX_zero_right (a : ℕ) : PX a 0 = X ^ a := Rab_zero_right a X
theorem PX_step (a b : ℕ) : PX (a + 1) (b + 1) = X * (PX a (b + 1) + PX (a + 1) b) - PX a b := by unfold PX; rw [Rab]
theorem PX_comm (a b : ℕ) : PX a b = PX b a := Rab_comm a b X

theorem PX_one (b : ℕ) : PX 1 (b + 1) = (b + 2 : ℤ[X]) * X ^ (b + 2) - (b + 1 : ℤ[X]) * X ^ b := by
  induction b with
  | zero => rw [PX_step, PX_zero_left, PX_zero_right, PX_zero_left]; push_cast; ring
  | succ b ih =>
    rw [PX_step, ih, PX_zero_left, PX_zero_left]
    push_cast
    ring

/-- `(R(n, m) - R(n-2, m))' = n (R(n-1, m-1) + R(n-1, m+1))`. -/
theorem PX_deriv (a b : ℕ) : derivative (PX (a + 1) (b + 1)) = derivative (PX a b) + (a + b + 2 : ℤ[X]) * (PX a (b + 1) + PX (a + 1) b) := by
  -- the equivalent equation, by the recursion
  have equiv : ∀ a b : ℕ, derivative (PX (a + 1) (b + 1)) = derivative (PX a b) + (a + b + 2 : ℤ[X]) * (PX a (b + 1) + PX (a + 1) b) →
      X * (derivative (PX a (b + 1)) + derivative (PX (a + 1) b)) = 2 * derivative (PX a b) + (a + b + 1 : ℤ[X]) * (PX a (b + 1) + PX (a + 1) b) := by
    intro a b h
    rw [PX_step] at h
    simp only [derivative_sub, derivative_mul, derivative_X, derivative_add, one_mul] at h
    linear_combination h
  have base : ∀ b : ℕ, derivative (PX 1 (b + 1)) = derivative (PX 0 b) + (b + 2 : ℤ[X]) * (PX 0 (b + 1) + PX 1 b) := by
    intro b
    rw [PX_one, PX_zero_left, PX_zero_left]
    rcases b with _ | b
    · rw [PX_zero_right]
      simp [derivative_pow]
      ring
    · rw [PX_one]
      have e1 : derivative ((((b + 1 : ℕ) : ℤ[X]) + 2) * X ^ (b + 1 + 2)) = (((b + 1 : ℕ) : ℤ[X]) + 2) * ((b + 3 : ℤ[X]) * X ^ (b + 2)) := by
        have : (((b + 1 : ℕ) : ℤ[X]) + 2) = C ((b : ℤ) + 3) := by simp; ring
        rw [this, derivative_C_mul, derivative_X_pow]
        simp only [map_natCast, map_add, Nat.cast_add, Nat.cast_one, Nat.cast_ofNat]
        norm_num
        left; ring
      have e2 : derivative ((((b + 1 : ℕ) : ℤ[X]) + 1) * X ^ (b + 1)) = (((b + 1 : ℕ) : ℤ[X]) + 1) * ((b + 1 : ℤ[X]) * X ^ b) := by
        have : (((b + 1 : ℕ) : ℤ[X]) + 1) = C ((b : ℤ) + 2) := by simp; ring
        rw [this, derivative_C_mul, derivative_X_pow]
        simp
      have e3 : derivative (X ^ (b + 1) : ℤ[X]) = (b + 1 : ℤ[X]) * X ^ b := by
        rw [derivative_X_pow]; simp
      rw [derivative_sub, e1, e2, e3]
      push_cast
      ring
  induction a generalizing b with
  | zero => simpa using base b
  | succ a iha =>
    induction b with
    | zero =>
      rw [PX_comm (a + 1 + 1) (0 + 1), PX_comm (a + 1) 0, PX_comm (a + 1) (0 + 1), PX_comm (a + 1 + 1) 0]
      have := base (a + 1)
      simp only [zero_add] at *
      rw [this]
      push_cast
      ring
    | succ b ihb =>
      have h1 := equiv a b (iha b)
      have h2 := iha b
      have h3 := iha (b + 1)
      have s1 := PX_step a (b + 1)
      have s2 := PX_step (a + 1) b
      have s0 := PX_step (a + 1) (b + 1)
      have d := congrArg derivative s0
      simp only [derivative_sub, derivative_mul, derivative_X, derivative_add, one_mul] at d
      push_cast at *
      linear_combination d + X * h3 + X * ihb + h1 - 2 * h2 - (a + b + 3 : ℤ[X]) * s1 - (a + b + 3 : ℤ[X]) * s2

/-- The first derivative at the rim. -/
def rim1 (a b : ℕ) : ℝ := 2 * a * b + a + b

/-- The second derivative at the rim. -/
noncomputable def rim2 (a b : ℕ) : ℝ := (rim1 a b ^ 2 - 2 * rim1 a b + ((a : ℝ) - b) ^ 2) / 2

theorem ev_D1 (a b : ℕ) (r : ℝ) : ev r (derivative (PX (a + 1) (b + 1))) = ev r (derivative (PX a b)) + (a + b + 2) * (Rab a (b + 1) r + Rab (a + 1) b r) := by
  rw [PX_deriv]
  have e : ∀ a b, ev r (PX a b) = Rab a b r := fun a b => by unfold PX; rw [map_Rab, ev_X]
  simp only [map_add, map_mul, map_natCast, e, map_ofNat]

theorem ev_D2 (a b : ℕ) (r : ℝ) : ev r (derivative (derivative (PX (a + 1) (b + 1)))) = ev r (derivative (derivative (PX a b))) +
    (a + b + 2) * (ev r (derivative (PX a (b + 1))) + ev r (derivative (PX (a + 1) b))) := by
  rw [PX_deriv]
  have : (a + b + 2 : ℤ[X]) = C ((a : ℤ) + b + 2) := by simp
  rw [this, derivative_add, derivative_C_mul, derivative_add]
  simp only [map_add, map_mul, ← this, map_natCast, map_ofNat]

theorem ev_D1_pow (k : ℕ) (r : ℝ) : ev r (derivative (X ^ k : ℤ[X])) = k * r ^ (k - 1) := by
  rw [derivative_X_pow]; simp

theorem ev_D2_pow (k : ℕ) (r : ℝ) : ev r (derivative (derivative (X ^ k : ℤ[X]))) = k * ((k - 1 : ℕ) * r ^ (k - 1 - 1)) := by
  rw [derivative_X_pow]
  have : ((k : ℕ) : ℤ[X]) = C (k : ℤ) := by simp
  simp only [map_natCast]
  rw [this, derivative_C_mul, derivative_X_pow]; simp

theorem D1_abs_le (a b : ℕ) (r : ℝ) (h0 : 0 ≤ r) (h1 : r ≤ 1) : |ev r (derivative (PX a b))| ≤ rim1 a b := by
  have hp : ∀ k : ℕ, |(k : ℝ) * r ^ (k - 1)| ≤ k := by
    intro k
    rw [abs_of_nonneg (by positivity)]
    exact mul_le_of_le_one_right (by positivity) (pow_le_one₀ h0 h1)
  induction a generalizing b with
  | zero => rw [PX_zero_left, ev_D1_pow]; refine (hp b).trans (by unfold rim1; simp)
  | succ a ih =>
    cases b with
    | zero => rw [PX_zero_right, ev_D1_pow]; refine (hp _).trans (by unfold rim1; simp)
    | succ b =>
      rw [ev_D1]
      have i := ih b
      have x1 := Rab_abs_le a (b + 1) r h0 h1
      have x2 := Rab_abs_le (a + 1) b r h0 h1
      refine (abs_add_le _ _).trans ?_
      rw [abs_mul, abs_of_nonneg (by positivity : (0 : ℝ) ≤ a + b + 2)]
      have : |Rab a (b + 1) r + Rab (a + 1) b r| ≤ 2 := (abs_add_le _ _).trans (by linarith)
      have := mul_le_mul_of_nonneg_left this (by positivity : (0 : ℝ) ≤ a + b + 2)
      unfold rim1 at *
      push_cast
      linarith

theorem D1_rim (a b : ℕ) : ev (1 : ℝ) (derivative (PX a b)) = rim1 a b := by
  induction a generalizing b with
  | zero => rw [PX_zero_left, ev_D1_pow]; unfold rim1; simp
  | succ a ih =>
    cases b with
    | zero => rw [PX_zero_right, ev_D1_pow]; unfold rim1; simp
    | succ b =>
      rw [ev_D1, ih b, Rab_at_one, Rab_at_one]
      unfold rim1
      push_cast
      ring

theorem D2_abs_le (a b : ℕ) (r : ℝ) (h0 : 0 ≤ r) (h1 : r ≤ 1) : |ev r (derivative (derivative (PX a b)))| ≤ rim2 a b := by
  have hp : ∀ k : ℕ, |(k : ℝ) * ((k - 1 : ℕ) * r ^ (k - 1 - 1))| ≤ k * (k - 1) := by
    intro k
    rw [abs_of_nonneg (by positivity)]
    rcases k with _ | k
    · simp
    · have : ((k + 1 - 1 : ℕ) : ℝ) = (k + 1 : ℕ) - 1 := by push_cast; ring
      rw [this]
      refine mul_le_mul_of_nonneg_left (mul_le_of_le_one_right ?_ (pow_le_one₀ h0 h1)) (by positivity)
      push_cast; simp
  induction a generalizing b with
  | zero => rw [PX_zero_left, ev_D2_pow]; refine (hp b).trans (le_of_eq (by unfold rim2 rim1; push_cast; ring))
  | succ a ih =>
    cases b with
    | zero => rw [PX_zero_right, ev_D2_pow]; refine (hp _).trans (le_of_eq (by unfold rim2 rim1; push_cast; ring))
    | succ b =>
      rw [ev_D2]
      have i := ih b
      have x1 := D1_abs_le a (b + 1) r h0 h1
      have x2 := D1_abs_le (a + 1) b r h0 h1
      refine (abs_add_le _ _).trans ?_
      rw [abs_mul, abs_of_nonneg (by positivity : (0 : ℝ) ≤ a + b + 2)]
      have := mul_le_mul_of_nonneg_left ((abs_add_le _ _).trans (add_le_add x1 x2)) (by positivity : (0 : ℝ) ≤ a + b + 2)
      refine (add_le_add i this).trans (le_of_eq ?_)
      unfold rim2 rim1
      push_cast
      ring

theorem D2_rim (a b : ℕ) : ev (1 : ℝ) (derivative (derivative (PX a b))) = rim2 a b := by
  have hp : ∀ k : ℕ, (k : ℝ) * ((k - 1 : ℕ) * 1 ^ (k - 1 - 1)) = k * (k - 1) := by
    intro k
    rcases k with _ | k
    · simp
    · simp
  induction a generalizing b with
  | zero => rw [PX_zero_left, ev_D2_pow, hp]; unfold rim2 rim1; push_cast; ring
  | succ a ih =>
    cases b with
    | zero => rw [PX_zero_right, ev_D2_pow, hp]; unfold rim2 rim1; push_cast; ring
    | succ b =>
      rw [ev_D2, ih b, D1_rim, D1_rim]
      unfold rim2 rim1
      push_cast
      ring

end Verif.Proofs
