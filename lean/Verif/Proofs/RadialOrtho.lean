import Verif.Proofs.RadialEq
import Mathlib.Algebra.Group.ForwardDiff
import Mathlib.Data.Nat.Factorial.BigOperators
import Mathlib.Analysis.SpecialFunctions.Integrals.Basic
import Mathlib.MeasureTheory.Integral.IntervalIntegral.IntegrationByParts
import Mathlib.Analysis.Calculus.Deriv.Pow

/-!
# Orthogonality of the radial polynomials

`∫₀¹ R_ab(r) r^(a-b+2j) r dr = 0` for `j < b` (a `b`-th finite difference of a polynomial of degree `b - 1`); the norm by parts.
-/

namespace Verif.Proofs
open Finset Nat Polynomial

/-- `trino · b! = C(b,k) · (a-k+1)···(a-k+b)`. -/
theorem trino_asc (a b k : Nat) (hka : k ≤ a) (hkb : k ≤ b) :
    trino k (a - k) (b - k) * b ! = b.choose k * ∏ i ∈ range b, (a - k + 1 + i) := by
  have h1 := trino_fact k (a - k) (b - k)
  have h2 := Nat.factorial_mul_ascFactorial (a - k) b
  rw [Nat.ascFactorial_eq_prod_range] at h2
  have h3 := Nat.choose_mul_factorial_mul_factorial hkb
  rw [show k + (a - k) + (b - k) = a - k + b by omega, ← h2] at h1
  have hpos : 0 < (a - k)! := Nat.factorial_pos _
  have h4 : trino k (a - k) (b - k) * (k ! * (b - k)!) = ∏ i ∈ range b, (a - k + 1 + i) := by
    apply Nat.eq_of_mul_eq_mul_left hpos
    rw [← h1]; ring
  rw [← h4, ← h3]; ring

theorem alt_sum_zero (b : Nat) (P : ℝ[X]) (h : P.natDegree < b) :
    ∑ k ∈ range (b + 1), (-1 : ℝ) ^ k * (b.choose k : ℝ) * P.eval (k : ℝ) = 0 := by
  have h0 := congrFun (Polynomial.fwdDiff_iter_eq_zero_of_degree_lt h) 0
  rw [fwdDiff_iter_eq_sum_shift] at h0
  simp only [zero_add, nsmul_eq_mul, mul_one, Pi.zero_apply, zsmul_eq_mul] at h0
  push_cast at h0
  have : ∑ k ∈ range (b + 1), (-1 : ℝ) ^ k * (b.choose k : ℝ) * P.eval (k : ℝ) =
      (-1) ^ b * ∑ k ∈ range (b + 1), (-1 : ℝ) ^ (b - k) * (b.choose k : ℝ) * P.eval (k : ℝ) := by
    rw [mul_sum]
    refine sum_congr rfl fun k hk => ?_
    have hk : k ≤ b := by simpa [Nat.lt_succ_iff] using hk
    have : (-1 : ℝ) ^ b * (-1) ^ (b - k) = (-1) ^ k := by
      rw [← pow_add, show b + (b - k) = 2 * (b - k) + k by omega, pow_add, pow_mul]; simp
    rw [← this]; ring
  rw [this, h0, mul_zero]

theorem coef_orth (a b j : Nat) (hba : b ≤ a) (hj : j < b) :
    ∑ k ∈ range (b + 1), (coefT a b k : ℝ) / ((a - k + j + 1 : Nat) : ℝ) = 0 := by
  set Q : ℝ[X] := ∏ i ∈ (range b).erase j, (C ((a : ℝ) + 1 + i) - X) with hQ
  have hdeg : Q.natDegree < b := by
    have h1 : Q.natDegree ≤ ∑ i ∈ (range b).erase j, 1 :=
      (natDegree_prod_le _ _).trans (sum_le_sum fun i _ => by compute_degree)
    rw [sum_const, card_erase_of_mem (mem_range.2 hj), card_range] at h1
    simp at h1
    omega
  have h0 := alt_sum_zero b Q hdeg
  have hb : ((b ! : Nat) : ℝ) ≠ 0 := by exact_mod_cast (Nat.factorial_pos b).ne'
  have : ∀ k ∈ range (b + 1), (coefT a b k : ℝ) / ((a - k + j + 1 : Nat) : ℝ) =
      ((-1 : ℝ) ^ k * (b.choose k : ℝ) * Q.eval (k : ℝ)) / (b ! : Nat) := by
    intro k hk
    have hkb : k ≤ b := by simpa [Nat.lt_succ_iff] using hk
    have hka : k ≤ a := hkb.trans hba
    have ht := trino_asc a b k hka hkb
    have hQe : Q.eval (k : ℝ) = ∏ i ∈ (range b).erase j, ((a - k + 1 + i : Nat) : ℝ) := by
      rw [hQ, eval_prod]
      refine prod_congr rfl fun i _ => ?_
      simp [Nat.cast_sub hka]; ring
    have hne : ((a - k + j + 1 : Nat) : ℝ) ≠ 0 := Nat.cast_ne_zero.2 (Nat.succ_ne_zero _)
    rw [hQe, div_eq_div_iff hne hb]
    unfold coefT
    rw [if_pos ⟨hka, hkb⟩]
    have ht' : (trino k (a - k) (b - k) : ℝ) * (b ! : Nat) = b.choose k * (((a - k + j + 1 : Nat) : ℝ) *
        ∏ i ∈ (range b).erase j, ((a - k + 1 + i : Nat) : ℝ)) := by
      rw [show a - k + j + 1 = a - k + 1 + j by ring, Finset.mul_prod_erase (range b) (fun i => ((a - k + 1 + i : Nat) : ℝ)) (mem_range.2 hj)]
      exact_mod_cast ht
    push_cast at ht' ⊢
    linear_combination (-1) ^ k * ht'
  rw [sum_congr rfl this, ← sum_div, h0, zero_div]

theorem Rab_continuous (a b : Nat) : Continuous (fun r : ℝ => Rab a b r) := by
  simp only [Rab_red]
  fun_prop

/-- The radial part is orthogonal to the lower powers of the same azimuthal order. -/
theorem Rab_orth_pow (a b j : Nat) (hba : b ≤ a) (hj : j < b) :
    ∫ r in (0 : ℝ)..1, Rab a b r * r ^ (a - b + 2 * j) * r = 0 := by
  have e : ∀ r : ℝ, Rab a b r * r ^ (a - b + 2 * j) * r =
      ∑ k ∈ range (b + 1), (coefT a b k : ℝ) * r ^ (2 * (a - k + j) + 1) := by
    intro r
    rw [Rab_eq_sum a b (b + 1) (by omega), mul_assoc, sum_mul]
    refine sum_congr rfl fun k hk => ?_
    have hk : k ≤ b := by simpa [Nat.lt_succ_iff] using hk
    rw [mul_assoc, ← pow_succ, ← pow_add]
    congr 2
    omega
  simp only [e]
  rw [intervalIntegral.integral_finset_sum (fun k _ => (by fun_prop : Continuous _).intervalIntegrable _ _)]
  simp only [intervalIntegral.integral_const_mul, integral_pow]
  have := coef_orth a b j hba hj
  refine Eq.trans ?_ ((congrArg (fun x => (1 / 2 : ℝ) * x) this).trans (mul_zero _))
  rw [mul_sum]
  refine sum_congr rfl fun k _ => ?_
  simp only [one_pow]
  rw [zero_pow (by omega), sub_zero]
  push_cast
  have : ((a - k : Nat) : ℝ) + j + 1 ≠ 0 := by positivity
  field_simp
  ring

/-- Orthogonality for different radial orders. -/
theorem Rab_orth (a b t : Nat) (hba : b ≤ a) (ht : 0 < t) :
    ∫ r in (0 : ℝ)..1, Rab (a + t) (b + t) r * Rab a b r * r = 0 := by
  have e : ∀ r : ℝ, Rab (a + t) (b + t) r * Rab a b r * r =
      ∑ k ∈ range (b + 1), (coefT a b k : ℝ) * (Rab (a + t) (b + t) r * r ^ (a + t - (b + t) + 2 * (b - k)) * r) := by
    intro r
    rw [Rab_eq_sum a b (b + 1) (by omega), mul_sum, sum_mul]
    refine sum_congr rfl fun k hk => ?_
    have hk : k ≤ b := by simpa [Nat.lt_succ_iff] using hk
    rw [show a + b - 2 * k = a + t - (b + t) + 2 * (b - k) by omega]; ring
  simp only [e]
  rw [intervalIntegral.integral_finset_sum (fun k _ => Continuous.intervalIntegrable
    (by have := Rab_continuous (a + t) (b + t); fun_prop) _ _)]
  refine sum_eq_zero fun k hk => ?_
  rw [intervalIntegral.integral_const_mul, Rab_orth_pow _ _ _ (by omega) (by omega), mul_zero]

/-- Derivative of the radial part, times `r`. -/
noncomputable def rD (a b : Nat) (r : ℝ) : ℝ :=
  ∑ k ∈ range (b + 1), (coefT a b k : ℝ) * ((a + b - 2 * k : Nat) : ℝ) * r ^ (a + b - 2 * k)

theorem Rab_hasDerivAt (a b : Nat) (r : ℝ) : ∃ d, HasDerivAt (fun r : ℝ => Rab a b r) d r ∧ (b ≤ a → r * d = rD a b r) := by
  refine ⟨∑ k ∈ range (min a b + 1), (coefT a b k : ℝ) * (((a + b - 2 * k : Nat) : ℝ) * r ^ (a + b - 2 * k - 1)), ?_, ?_⟩
  · simp only [Rab_red]
    exact HasDerivAt.fun_sum fun k _ => (hasDerivAt_pow _ r).const_mul _
  · intro h
    rw [min_eq_right h]
    unfold rD
    rw [mul_sum]
    refine sum_congr rfl fun k _ => ?_
    rcases Nat.eq_zero_or_pos (a + b - 2 * k) with h0 | h0
    · rw [h0]; simp
    · obtain ⟨e, he⟩ : ∃ e, a + b - 2 * k = e + 1 := ⟨a + b - 2 * k - 1, by omega⟩
      rw [he, Nat.add_sub_cancel, pow_succ]; ring

theorem rD_eq (a b : Nat) (hba : b ≤ a) (r : ℝ) :
    rD a b r = (a + b) * Rab a b r - ∑ k ∈ range b, 2 * (k + 1) * (coefT a b (k + 1) : ℝ) * r ^ (a - b + 2 * (b - (k + 1))) := by
  unfold rD
  rw [Rab_eq_sum a b (b + 1) (by omega), sum_range_succ', sum_range_succ', mul_add, mul_sum, add_sub_right_comm, ← sum_sub_distrib]
  congr 1
  · refine sum_congr rfl fun k hk => ?_
    have hk : k < b := by simpa using hk
    rw [show a + b - 2 * (k + 1) = a - b + 2 * (b - (k + 1)) by omega]
    have : ((a - b + 2 * (b - (k + 1)) : Nat) : ℝ) = a + b - 2 * (k + 1) := by
      rw [show a - b + 2 * (b - (k + 1)) = a + b - 2 * (k + 1) by omega, Nat.cast_sub (by omega)]; push_cast; ring
    rw [this]; ring
  · rw [Nat.mul_zero, Nat.sub_zero]; push_cast; ring

theorem Rab_rD (a b : Nat) (hba : b ≤ a) :
    ∫ r in (0 : ℝ)..1, Rab a b r * rD a b r * r = (a + b) * ∫ r in (0 : ℝ)..1, Rab a b r * Rab a b r * r := by
  have hc := Rab_continuous a b
  have e : ∀ r : ℝ, Rab a b r * rD a b r * r = (a + b) * (Rab a b r * Rab a b r * r) -
      ∑ k ∈ range b, (2 * (k + 1) * (coefT a b (k + 1) : ℝ)) * (Rab a b r * r ^ (a - b + 2 * (b - (k + 1))) * r) := by
    intro r
    rw [rD_eq a b hba, mul_sub, sub_mul, mul_sum, sum_mul]
    congr 1
    · ring
    · exact sum_congr rfl fun k _ => by ring
  simp only [e]
  rw [intervalIntegral.integral_sub (Continuous.intervalIntegrable (by fun_prop) _ _)
    (Continuous.intervalIntegrable (by fun_prop) _ _), intervalIntegral.integral_const_mul,
    intervalIntegral.integral_finset_sum (fun k _ => Continuous.intervalIntegrable (by fun_prop) _ _), sum_eq_zero, sub_zero]
  intro k hk
  have hk : k < b := by simpa using hk
  rw [intervalIntegral.integral_const_mul, Rab_orth_pow _ _ _ hba (by omega), mul_zero]

/-- The norm. -/
theorem Rab_norm (a b : Nat) (hba : b ≤ a) :
    ∫ r in (0 : ℝ)..1, Rab a b r * Rab a b r * r = 1 / (2 * (a + b + 1)) := by
  have hc := Rab_continuous a b
  have hcd : Continuous (rD a b) := by unfold rD; fun_prop
  have h1 := Rab_rD a b hba
  set I := ∫ r in (0 : ℝ)..1, Rab a b r * Rab a b r * r with hI
  have hder : ∀ r ∈ Set.uIcc (0 : ℝ) 1, HasDerivAt (fun r : ℝ => r * r * (Rab a b r * Rab a b r))
      (2 * (Rab a b r * Rab a b r * r) + 2 * (Rab a b r * rD a b r * r)) r := by
    intro r _
    obtain ⟨d, hd, hrd⟩ := Rab_hasDerivAt a b r
    have := ((hasDerivAt_id r).mul (hasDerivAt_id r)).mul (hd.mul hd)
    convert! this using 1
    simp only [id_eq, Pi.mul_apply]
    rw [← hrd hba]; ring
  have ft := intervalIntegral.integral_eq_sub_of_hasDerivAt hder (Continuous.intervalIntegrable (by fun_prop) _ _)
  rw [intervalIntegral.integral_add (Continuous.intervalIntegrable (by fun_prop) _ _)
    (Continuous.intervalIntegrable (by fun_prop) _ _), intervalIntegral.integral_const_mul,
    intervalIntegral.integral_const_mul, h1, ← hI, Rab_at_one] at ft
  have hn : (2 * ((a : ℝ) + b + 1)) ≠ 0 := by positivity
  rw [eq_div_iff hn]
  linarith

end Verif.Proofs
