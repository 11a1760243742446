import Verif.Proofs.Radial
import Mathlib.Analysis.Complex.Liouville
import Mathlib.Analysis.MeanInequalities
import Mathlib.Analysis.Calculus.Deriv.Polynomial
import Mathlib.Analysis.Calculus.IteratedDeriv.Lemmas

/-!
# `|R(r)| ≤ 1` on the unit disk

With `c² + s² = 1`, `R_ab(c)` is the coefficient of `x^a` of `(c x - s)^a (s x + c)^b`. Cauchy's estimate on the circle `|x|² = a/b` and the
weighted inequality of arithmetic and geometric means give the bound.
-/

namespace Verif.Proofs
open Finset Polynomial

section
variable {α : Type} [CommRing α]

/-- The double-binomial form. -/
def Tab (a b N : Nat) (c s : α) : α :=
  ∑ k ∈ range N, (-1) ^ k * ((a.choose k * b.choose k : Nat) : α) * (c ^ (a - k) * c ^ (b - k)) * (s ^ k * s ^ k)

theorem choose_pow (a k : Nat) (c : α) : ((a.choose k : Nat) : α) * c ^ (a + 1 - k) = (a.choose k : α) * (c * c ^ (a - k)) := by
  by_cases h : k ≤ a
  · rw [show a + 1 - k = (a - k) + 1 by omega, pow_succ]; ring
  · rw [Nat.choose_eq_zero_of_lt (by omega)]; simp

theorem Tab_rec (a b N : Nat) (c s : α) (h : c ^ 2 + s ^ 2 = 1) :
    Tab (a + 1) (b + 1) (N + 1) c s =
      c * (Tab a (b + 1) (N + 1) c s + Tab (a + 1) b (N + 1) c s) - (c ^ 2 * Tab a b (N + 1) c s + s ^ 2 * Tab a b N c s) := by
  unfold Tab
  rw [sum_range_succ' _ N, sum_range_succ' _ N, sum_range_succ' _ N, sum_range_succ' (fun k => (-1) ^ k *
    ((a.choose k * b.choose k : Nat) : α) * (c ^ (a - k) * c ^ (b - k)) * (s ^ k * s ^ k)) N]
  simp only [mul_add, mul_sum, ← sum_add_distrib]
  have key : ∀ k, (-1) ^ (k + 1) * (((a + 1).choose (k + 1) * (b + 1).choose (k + 1) : Nat) : α) *
        (c ^ (a + 1 - (k + 1)) * c ^ (b + 1 - (k + 1))) * (s ^ (k + 1) * s ^ (k + 1)) =
      c * ((-1) ^ (k + 1) * ((a.choose (k + 1) * (b + 1).choose (k + 1) : Nat) : α) *
          (c ^ (a - (k + 1)) * c ^ (b + 1 - (k + 1))) * (s ^ (k + 1) * s ^ (k + 1))) +
      c * ((-1) ^ (k + 1) * (((a + 1).choose (k + 1) * b.choose (k + 1) : Nat) : α) *
          (c ^ (a + 1 - (k + 1)) * c ^ (b - (k + 1))) * (s ^ (k + 1) * s ^ (k + 1))) -
      (c ^ 2 * ((-1) ^ (k + 1) * ((a.choose (k + 1) * b.choose (k + 1) : Nat) : α) *
          (c ^ (a - (k + 1)) * c ^ (b - (k + 1))) * (s ^ (k + 1) * s ^ (k + 1))) +
       s ^ 2 * ((-1) ^ k * ((a.choose k * b.choose k : Nat) : α) * (c ^ (a - k) * c ^ (b - k)) * (s ^ k * s ^ k))) := by
    intro k
    have ha := choose_pow (α := α) a (k + 1) c
    have hb := choose_pow (α := α) b (k + 1) c
    rw [show a + 1 - (k + 1) = a - k by omega] at *
    rw [show b + 1 - (k + 1) = b - k by omega] at *
    rw [Nat.choose_succ_succ' a, Nat.choose_succ_succ' b]
    push_cast
    generalize c ^ (a - (k + 1)) = A' at *
    generalize c ^ (b - (k + 1)) = B' at *
    generalize c ^ (a - k) = A at *
    generalize c ^ (b - k) = B at *
    generalize (a.choose (k + 1) : α) = x at *
    generalize (b.choose (k + 1) : α) = y at *
    generalize (a.choose k : α) = u
    generalize (b.choose k : α) = v
    rw [pow_succ, pow_succ]
    generalize s ^ k = S
    generalize (-1 : α) ^ k = E
    linear_combination (-(E * S ^ 2 * s ^ 2) * (v * B)) * ha + (-(E * S ^ 2 * s ^ 2) * ((u + x) * A - x * c * A')) * hb
  rw [sum_congr rfl (fun k _ => key k)]
  simp only [sum_sub_distrib, sum_add_distrib]
  simp only [pow_zero, Nat.choose_zero_right, Nat.sub_zero]
  push_cast
  rw [pow_succ c a, pow_succ c b]
  ring

theorem Rab_eq_Tab (a b N : Nat) (hN : a + b < N) (c s : α) (h : c ^ 2 + s ^ 2 = 1) : Rab a b c = Tab a b N c s := by
  have z : ∀ a b N : Nat, 0 < N → (a = 0 ∨ b = 0) → Tab a b N c s = c ^ (a + b) := by
    intro a b N hN hab
    obtain ⟨N, rfl⟩ : ∃ M, N = M + 1 := ⟨N - 1, by omega⟩
    unfold Tab
    rw [sum_range_succ', sum_eq_zero]
    · simp [pow_add]
    · intro k _
      rcases hab with rfl | rfl <;> simp
  induction a generalizing b N with
  | zero => rw [z 0 b N (by omega) (.inl rfl)]; simp [Rab]
  | succ a iha =>
    induction b generalizing N with
    | zero => rw [z (a + 1) 0 N (by omega) (.inr rfl)]; simp [Rab]
    | succ b ihb =>
      obtain ⟨N, rfl⟩ : ∃ M, N = M + 1 := ⟨N - 1, by omega⟩
      rw [Tab_rec a b N c s h, Rab, ← iha (b + 1) (N + 1) (by omega), ← ihb (N + 1) (by omega),
        ← iha b (N + 1) (by omega), ← iha b N (by omega)]
      linear_combination (Rab a b c) * h

theorem coeff_lin_pow (u v : α) (b k : Nat) : ((C u * X + C v) ^ b).coeff k = (b.choose k : α) * u ^ k * v ^ (b - k) := by
  rw [add_pow, finset_sum_coeff]
  simp only [mul_pow, ← C_pow]
  have : ∀ i, (C (u ^ i) * X ^ i * C (v ^ (b - i)) * ((b.choose i : Nat) : α[X])).coeff k =
      if k = i then (b.choose i : α) * u ^ i * v ^ (b - i) else 0 := by
    intro i
    rw [show C (u ^ i) * X ^ i * C (v ^ (b - i)) * ((b.choose i : Nat) : α[X]) =
      C ((b.choose i : α) * u ^ i * v ^ (b - i)) * X ^ i by simp; ring, coeff_C_mul_X_pow]
  simp only [this, Finset.sum_ite_eq, mem_range]
  split_ifs with h
  · rfl
  · rw [Nat.choose_eq_zero_of_lt (by omega)]; simp

theorem coeff_prod (a b : Nat) (c s : α) :
    ((C c * X + C (-s)) ^ a * (C s * X + C c) ^ b).coeff a = Tab a b (a + 1) c s := by
  rw [coeff_mul, Finset.Nat.sum_antidiagonal_eq_sum_range_succ_mk, ← Finset.sum_range_reflect]
  unfold Tab
  refine sum_congr rfl fun k hk => ?_
  have hk : k ≤ a := by simpa [Nat.lt_succ_iff] using hk
  simp only [coeff_lin_pow]
  rw [show a + 1 - 1 - k = a - k by omega, show a - (a - k) = k by omega, Nat.choose_symm hk, neg_pow]
  push_cast; ring

theorem Tab_trunc (a b N : Nat) (h : a < N) (c s : α) : Tab a b N c s = Tab a b (a + 1) c s := by
  unfold Tab
  refine (sum_subset (range_subset_range.2 (by omega)) fun k _ hk => ?_).symm
  rw [Nat.choose_eq_zero_of_lt (by simpa using hk)]; simp

theorem Rab_eq_coeff (a b : Nat) (c s : α) (h : c ^ 2 + s ^ 2 = 1) :
    Rab a b c = ((C c * X + C (-s)) ^ a * (C s * X + C c) ^ b).coeff a := by
  rw [coeff_prod, Rab_eq_Tab a b (a + b + 1) (by omega) c s h, Tab_trunc _ _ _ (by omega)]

end

/-! ### Analysis -/

theorem iteratedDeriv_poly (p : ℂ[X]) (k : Nat) : iteratedDeriv k (fun z => p.eval z) = fun z => (derivative^[k] p).eval z := by
  induction k with
  | zero => simp
  | succ k ih =>
    rw [iteratedDeriv_succ, ih, Function.iterate_succ_apply']
    funext z
    exact Polynomial.deriv _

/-- Cauchy's estimate for a coefficient of a polynomial. -/
theorem coeff_le (p : ℂ[X]) (k : Nat) (ρ M : ℝ) (hρ : 0 < ρ) (h : ∀ z : ℂ, ‖z‖ = ρ → ‖p.eval z‖ ≤ M) :
    ‖p.coeff k‖ * ρ ^ k ≤ M := by
  have hd : DiffContOnCl ℂ (fun z => p.eval z) (Metric.ball 0 ρ) := p.differentiable.diffContOnCl
  have := Complex.norm_iteratedDeriv_le_of_forall_mem_sphere_norm_le k hρ hd
    (C := M) (fun z hz => h z (by simpa using hz))
  rw [iteratedDeriv_poly] at this
  have e : (derivative^[k] p).eval 0 = (k.factorial : ℂ) * p.coeff k := by
    rw [← coeff_zero_eq_eval_zero, coeff_iterate_derivative]
    simp [Nat.descFactorial_self]
  simp only [e, norm_mul, Complex.norm_natCast] at this
  have hk : (0 : ℝ) < k.factorial := by exact_mod_cast k.factorial_pos
  have hp : (0 : ℝ) < ρ ^ k := by positivity
  rw [mul_div_assoc] at this
  have := le_of_mul_le_mul_left this hk
  rwa [le_div_iff₀ hp] at this

/-- Weighted inequality of arithmetic and geometric means, cleared of roots. -/
theorem amgm (a b : Nat) (ha : 0 < a) (hb : 0 < b) (x y : ℝ) (hx : 0 ≤ x) (hy : 0 ≤ y) (h : b * (x + y) = a + b) :
    x ^ a * y ^ b * b ^ a ≤ a ^ a := by
  have ha' : (0 : ℝ) < a := by exact_mod_cast ha
  have hb' : (0 : ℝ) < b := by exact_mod_cast hb
  have hw := Real.geom_mean_le_arith_mean2_weighted (w₁ := a / (a + b)) (w₂ := b / (a + b)) (p₁ := x * b / a) (p₂ := y)
    (by positivity) (by positivity) (by positivity) hy (by field_simp)
  have e1 : a / (a + b) * (x * b / a) + b / (a + b) * y = 1 := by
    field_simp
    linarith
  rw [e1] at hw
  have h0 : 0 ≤ (x * b / a) ^ ((a : ℝ) / (a + b)) * y ^ ((b : ℝ) / (a + b)) := by positivity
  have := pow_le_one₀ (n := a + b) h0 hw
  rw [mul_pow, ← Real.rpow_natCast, ← Real.rpow_natCast, ← Real.rpow_mul (by positivity), ← Real.rpow_mul hy] at this
  have e2 : (a : ℝ) / (a + b) * ((a + b : Nat) : ℝ) = a := by push_cast; field_simp
  have e3 : (b : ℝ) / (a + b) * ((a + b : Nat) : ℝ) = b := by push_cast; field_simp
  rw [e2, e3, Real.rpow_natCast, Real.rpow_natCast, div_pow, mul_pow] at this
  rw [div_mul_eq_mul_div, div_le_one (by positivity)] at this
  linarith

theorem Rab_abs_le (a b : Nat) (r : ℝ) (h0 : 0 ≤ r) (h1 : r ≤ 1) : |Rab a b r| ≤ 1 := by
  rcases Nat.eq_zero_or_pos a with rfl | ha
  · simp only [Rab]; rw [abs_of_nonneg (by positivity)]; exact pow_le_one₀ h0 h1
  rcases Nat.eq_zero_or_pos b with rfl | hb
  · rw [Rab_zero_right, abs_of_nonneg (by positivity)]; exact pow_le_one₀ h0 h1
  set s := Real.sqrt (1 - r ^ 2) with hs
  have hs2 : s ^ 2 = 1 - r ^ 2 := Real.sq_sqrt (by nlinarith)
  have hcs : (r : ℂ) ^ 2 + (s : ℂ) ^ 2 = 1 := by exact_mod_cast (by linarith : r ^ 2 + s ^ 2 = 1)
  have ha' : (0 : ℝ) < a := by exact_mod_cast ha
  have hb' : (0 : ℝ) < b := by exact_mod_cast hb
  set ρ := Real.sqrt (a / b) with hρ
  have hρ0 : 0 < ρ := Real.sqrt_pos.2 (by positivity)
  have hρ2 : ρ ^ 2 = a / b := Real.sq_sqrt (by positivity)
  set P : ℂ[X] := (C (r : ℂ) * X + C (-(s : ℂ))) ^ a * (C (s : ℂ) * X + C (r : ℂ)) ^ b with hP
  have hc : ((Rab a b r : ℝ) : ℂ) = P.coeff a := by
    rw [← Rab_eq_coeff a b (r : ℂ) (s : ℂ) hcs]
    exact map_Rab Complex.ofRealHom a b r
  have hb2 : ∀ z : ℂ, ‖z‖ = ρ → ‖P.eval z‖ ≤ ρ ^ a := by
    intro z hz
    have hz2 : Complex.normSq z = a / b := by rw [Complex.normSq_eq_norm_sq, hz, hρ2]
    have hsum : Complex.normSq (r * z - s) + Complex.normSq (s * z + r) = a / b + 1 := by
      rw [Complex.normSq_apply] at *
      simp only [Complex.normSq_apply, Complex.sub_re, Complex.sub_im, Complex.add_re, Complex.add_im, Complex.mul_re,
        Complex.mul_im, Complex.ofReal_re, Complex.ofReal_im]
      linear_combination (r ^ 2 + s ^ 2) * hz2 + (a / b + 1) * hs2
    have hag := amgm a b ha hb (Complex.normSq (r * z - s)) (Complex.normSq (s * z + r)) (Complex.normSq_nonneg _)
      (Complex.normSq_nonneg _) (by rw [hsum]; field_simp)
    have hev : P.eval z = (r * z - s) ^ a * (s * z + r) ^ b := by simp [hP, sub_eq_add_neg]
    rw [← abs_of_nonneg (norm_nonneg (P.eval z)), ← abs_of_pos (pow_pos hρ0 a)]
    apply sq_le_sq.1
    rw [hev, norm_mul, norm_pow, norm_pow, mul_pow, ← pow_mul, ← pow_mul, ← pow_mul, mul_comm a 2, mul_comm b 2, pow_mul,
      pow_mul, pow_mul, ← Complex.normSq_eq_norm_sq, ← Complex.normSq_eq_norm_sq, hρ2, div_pow, le_div_iff₀ (by positivity)]
    exact hag
  have := coeff_le P a ρ (ρ ^ a) hρ0 hb2
  rw [← hc, Complex.norm_real, Real.norm_eq_abs] at this
  have hp : 0 < ρ ^ a := by positivity
  nlinarith

theorem RR_abs_le (m n : Int) (r : ℝ) (h0 : 0 ≤ r) (h1 : r ≤ 1) : |RR m n r| ≤ 1 := Rab_abs_le _ _ r h0 h1

end Verif.Proofs
